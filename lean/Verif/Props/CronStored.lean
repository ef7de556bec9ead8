import Verif.Props.Cron
import Verif.Props.RecordIsHistory

/-! # C118: what a cron runner stores -/

namespace Rexecutor

/-! ## Specification -/

/-- The job that an `enqueue` call which begins here asks for. -/
def TAct.enqueues (a : TAct) : Option EnqueuableJob :=
  match a.act with
  | .start e => some e
  | _ => none

/-- The same on Postgres. -/
def TPgAct.enqueues (a : TPgAct) : Option EnqueuableJob :=
  match a.act with
  | .plain e => some { e with criteria := none }
  | .unique e uc => some { e with criteria := some uc }
  | _ => none

/-- How many jobs of this executor, scheduled for time `t`, were stored in a history. -/
def storedFor (executor : String) (t : Time) (h : List TEv) : Nat :=
  h.countP fun x => match x.ev with
    | .inserted _ e => decide (e.executor = executor ∧ e.scheduledAt = t)
    | _ => false

/-- The same on Postgres. -/
def pgStoredFor (executor : String) (t : Time) (h : List TPgEv) : Nat :=
  h.countP fun x => match x.ev with
    | .inserted row _ => decide (row.executor = executor ∧ row.scheduledAt = t)
    | _ => false

/-! ## The calls of one runner -/

private theorem count_strict {f : α → Int} {l : List α} (hp : l.Pairwise fun a b => f a < f b) {a : α} (ha : a ∈ l)
    {P : α → Bool} (hP : ∀ b ∈ l, P b = decide (f b = f a)) : l.countP P = 1 := by
  induction l with
  | nil => simp at ha
  | cons b l ih =>
    rw [List.pairwise_cons] at hp
    rw [List.countP_cons]
    rcases List.mem_cons.mp ha with rfl | hm
    · have h0 : l.countP P = 0 := by
        rw [List.countP_eq_zero]
        intro x hx
        rw [hP x (List.mem_cons_of_mem _ hx)]
        have := hp.1 x hx
        simp; omega
      rw [h0, hP a (List.mem_cons_self ..)]
      simp
    · rw [ih hp.2 hm fun x hx => hP x (List.mem_cons_of_mem _ hx), hP b (List.mem_cons_self ..)]
      have := hp.1 a hm
      simp; omega

private theorem one_each (c : Cron D M) (t : Time) (ls : List Lags) (x : Turn) (hx : x ∈ c.loop t ls) (j : EnqueuableJob)
    (hj : x.job = some j) {P : EnqueuableJob → Bool}
    (hP : ∀ e, (∃ y ∈ c.loop t ls, y.job = some e) → P e = decide (e.executor = c.consts.name ∧ e.scheduledAt = x.tick)) :
    ((c.loop t ls).filterMap (·.job)).countP P = 1 := by
  have hpw : ((c.loop t ls).filterMap (·.job)).Pairwise fun a b => a.scheduledAt < b.scheduledAt := by
    have h := C40_increasing c t ls
    have h' : (c.loop t ls).Pairwise fun a b => a.tick < b.tick ∧ a ∈ c.loop t ls ∧ b ∈ c.loop t ls := by
      have hall : ∀ (l : List Turn) (R : Turn → Turn → Prop), l.Pairwise R → l.Pairwise fun a b => R a b ∧ a ∈ l ∧ b ∈ l := by
        intro l R hl
        induction hl with
        | nil => exact .nil
        | cons h1 _ ih =>
          refine .cons (fun b hb => ⟨h1 b hb, List.mem_cons_self .., List.mem_cons_of_mem _ hb⟩) ?_
          exact ih.imp fun h => ⟨h.1, List.mem_cons_of_mem _ h.2.1, List.mem_cons_of_mem _ h.2.2⟩
      exact hall _ _ h
    rw [List.pairwise_filterMap]
    refine h'.imp ?_
    rintro a b ⟨hab, ha, hb⟩ e he e' he'
    rw [(C40_job c t ls a ha e he).1, (C40_job c t ls b hb e' he').1]
    exact hab
  refine count_strict hpw (a := j) (List.mem_filterMap.mpr ⟨x, hx, hj⟩) ?_
  intro e he
  obtain ⟨y, hy, hye⟩ := List.mem_filterMap.mp he
  rw [hP e ⟨y, hy, hye⟩, (C40_job c t ls x hx j hj).1, (C40_job c t ls y hy e hye).2.1]
  simp

private theorem turn_criteria (c : Cron D M) (t : Time) (ls : List Lags) (x : Turn) (hx : x ∈ c.loop t ls) (j : EnqueuableJob)
    (hj : x.job = some j) : j.criteria = some (cronCriteria c.keyHash) := by
  have hjob : x.job = c.job x.at' x.tick := by
    induction ls generalizing t with
    | nil => simp [Cron.loop] at hx
    | cons l ls ih =>
      simp only [Cron.loop] at hx
      split at hx
      · simp at hx
      · rename_i y hy
        rcases List.mem_cons.mp hx with rfl | hx
        · unfold Cron.turn at hy
          split at hy
          · simp at hy
          · simp only [Option.some.injEq] at hy
            subst hy; rfl
        · exact ih _ hx
  rw [hjob] at hj
  simp only [Cron.job, JobBuilder.build, JobBuilder.applyAll, List.foldl, JobBuilder.apply, JobBuilder.init,
    Codec.encOption] at hj
  split at hj
  · simp at hj
  · simp only [Option.some.injEq] at hj
    subst hj; rfl

/-! ## In memory -/

private def Pending.awaits (P : EnqueuableJob → Bool) : Pending → Bool
  | .start e => P e
  | .noMatch e => P e
  | .allocated _ e => P e
  | _ => false

private def storedP (P : EnqueuableJob → Bool) (x : TEv) : Bool :=
  match x.ev with
  | .inserted _ e => P e
  | _ => false

private theorem cnt_cons (P : α → Bool) (a : α) (l : List α) : (a :: l).countP P = l.countP P + (P a).toNat := by
  rw [List.countP_cons]
  cases P a <;> rfl

private theorem cnt_set {P : α → Bool} {l : List α} {i : Nat} {a b : α} (h : l[i]? = some a) :
    (l.set i b).countP P + (P a).toNat = l.countP P + (P b).toNat := by
  induction l generalizing i with
  | nil => simp at h
  | cons x l ih =>
    cases i with
    | zero =>
      simp only [List.getElem?_cons_zero, Option.some.injEq] at h
      subst h
      simp only [List.set_cons_zero, cnt_cons]
      omega
    | succ i =>
      simp only [List.getElem?_cons_succ] at h
      simp only [List.set_cons_succ, cnt_cons]
      have := ih h
      omega

private theorem stored_count (P : EnqueuableJob → Bool) (as : List TAct) (c : Conc)
    (hs : ∀ a ∈ as, ∀ e, a.act = .start e → P e = true → ∀ now k, e.matches now k = false)
    (hc : ∀ e, Pending.start e ∈ c.calls → P e = true → ∀ now k, e.matches now k = false) :
    (c.trace as).countP (storedP P) + (c.run as).calls.countP (Pending.awaits P) =
      c.calls.countP (Pending.awaits P) + (as.filterMap TAct.enqueues).countP P := by
  induction as generalizing c with
  | nil => simp [Conc.trace, Conc.run]
  | cons a as ih =>
    have hs' := fun b hb => hs b (List.mem_cons_of_mem _ hb)
    obtain ⟨now, act⟩ := a
    cases act with
    | start e =>
      have := ih (c.step now (.start e)).2 hs' (by
        intro e' he'
        simp only [Conc.step, List.mem_append, List.mem_singleton] at he'
        rcases he' with he' | he'
        · exact hc e' he'
        · cases he'; exact hs _ (List.mem_cons_self ..) e rfl)
      simp only [Conc.trace, Conc.run, cnt_cons]
      simp only [Conc.step, List.countP_append, cnt_cons, List.countP_nil, Pending.awaits, storedP] at this ⊢
      rw [List.filterMap_cons]
      simp only [TAct.enqueues, cnt_cons]
      simp only [Bool.toNat_false, List.countP_nil] at this ⊢
      omega
    | op o =>
      have := ih (c.step now (.op o)).2 hs' hc
      simp only [Conc.trace, Conc.run, cnt_cons]
      rw [List.filterMap_cons]
      simp only [TAct.enqueues]
      simp only [Conc.step, storedP, Bool.toNat_false] at this ⊢
      omega
    | advance i =>
      simp only [Conc.trace, Conc.run, cnt_cons]
      rw [List.filterMap_cons]
      simp only [TAct.enqueues]
      cases hi : c.calls[i]? with
      | none =>
        have := ih (c.step now (.advance i)).2 hs' (by simp only [Conc.step, hi]; exact hc)
        simp only [Conc.step, hi, storedP, Bool.toNat_false] at this ⊢
        omega
      | some p =>
        have hm := List.mem_of_getElem? hi
        have keep : ∀ p' m', (∀ e, p' ≠ .start e) → ∀ e, Pending.start e ∈ (Conc.mk m' (c.calls.set i p')).calls →
            P e = true → ∀ now k, e.matches now k = false := by
          intro p' m' hp' e he
          rcases List.mem_or_eq_of_mem_set he with he | he
          · exact hc e he
          · exact absurd he.symm (hp' e)
        have go : ∀ ev p' m', c.mem.advance now p = (ev, p', m') → (∀ e, p' ≠ .start e) →
            (storedP P ⟨now, ev⟩).toNat + (p'.awaits P).toNat = (p.awaits P).toNat →
            (Conc.trace (c.step now (.advance i)).2 as).countP (storedP P) +
              (storedP P ⟨now, (c.step now (.advance i)).1⟩).toNat +
              (Conc.run (c.step now (.advance i)).2 as).calls.countP (Pending.awaits P) =
            c.calls.countP (Pending.awaits P) + (as.filterMap TAct.enqueues).countP P := by
          intro ev p' m' h h1 h2
          have := ih ⟨m', c.calls.set i p'⟩ hs' (keep p' m' h1)
          have hset := cnt_set (P := Pending.awaits P) (b := p') hi
          simp only [Conc.step, hi, h]
          simp only at this
          omega
        cases p with
        | start e =>
          cases hcr : e.criteria with
          | none =>
            exact go (.allocated (wrapI32 c.mem.allocated)) (.allocated (wrapI32 c.mem.allocated) e)
              { c.mem with allocated := c.mem.allocated + 1 } (by simp only [Mem.advance, hcr]) (by simp)
              (by simp [storedP, Pending.awaits])
          | some uc =>
            cases hf : c.mem.jobs.filter fun k => e.matches now k with
            | nil => exact go (.looked none) (.noMatch e) c.mem (by simp only [Mem.advance, hcr, hf]) (by simp) (by simp [storedP, Pending.awaits])
            | cons k ks =>
              refine go (.looked (some k.job.id)) (.matched (k.job.replace e)) c.mem (by simp only [Mem.advance, hcr, hf]) (by simp) ?_
              have hk : k ∈ c.mem.jobs.filter fun k => e.matches now k := by rw [hf]; simp
              have hk' := (List.mem_filter.mp hk).2
              cases hP : P e with
              | false => simp [storedP, Pending.awaits, hP]
              | true => rw [hc e hm hP] at hk'; simp at hk'
        | noMatch e => exact go _ _ _ rfl (by simp) (by simp [storedP, Pending.awaits])
        | allocated id e => exact go _ _ _ rfl (by simp) (by simp [storedP, Pending.awaits])
        | pushed id e => exact go _ _ _ rfl (by simp) (by simp [storedP, Pending.awaits])
        | matched job =>
          have : ∃ r r' m', c.mem.advance now (.matched job) = (.wrote job r, .done r', m') := by
            simp only [Mem.advance]
            split <;> exact ⟨_, _, _, rfl⟩
          obtain ⟨r, r', m', h⟩ := this
          exact go _ _ _ h (by simp) (by simp [storedP, Pending.awaits])
        | done r => exact go _ _ _ rfl (by simp) (by simp [storedP, Pending.awaits])

private theorem never_matches {e : EnqueuableJob} {h : Int} (hc : e.criteria = some (cronCriteria h)) (now : Time) (k : KeyedJob) :
    e.matches now k = false := by
  cases hm : e.matches now k with
  | false => rfl
  | true =>
    obtain ⟨uc, h1, h2⟩ := matches_iff.mp hm
    rw [hc] at h1
    cases h1
    have := h2.window 0 rfl
    simp only [Time, Delta] at *
    omega

/-- **C118, in memory.** Take any schedule of calls, however they overlap, in which the `enqueue`
calls are those of one cron runner, delayed in any way, and others, none of which is for the same
executor and one of its ticks. Once they all have returned, exactly one job of the executor has
been stored for every tick the runner served. -/
theorem C118_in_memory (c : Cron D M) (t : Time) (ls : List Lags) (paused : Bool) (as : List TAct) (others : List EnqueuableJob)
    (hcalls : (as.filterMap TAct.enqueues).Perm ((c.loop t ls).filterMap (·.job) ++ others))
    (hothers : ∀ e ∈ others, e.executor = c.consts.name → ∀ x ∈ c.loop t ls, e.scheduledAt ≠ x.tick)
    (hdone : ∀ p ∈ ((fresh paused).run as).calls, ∃ r, p = .done r)
    (x : Turn) (hx : x ∈ c.loop t ls) (hj : x.job ≠ none) :
    storedFor c.consts.name x.tick ((fresh paused).trace as) = 1 := by
  obtain ⟨j, hj⟩ := Option.ne_none_iff_exists'.mp hj
  let P : EnqueuableJob → Bool := fun e => decide (e.executor = c.consts.name ∧ e.scheduledAt = x.tick)
  have ho : others.countP P = 0 := by
    rw [List.countP_eq_zero]
    intro e he
    simp only [P, decide_eq_true_eq]
    rintro ⟨h1, h2⟩
    exact hothers e he h1 x hx h2
  have h1 := stored_count P as (fresh paused) (by
    intro a ha e he hP now k
    have hmem : e ∈ as.filterMap TAct.enqueues := List.mem_filterMap.mpr ⟨a, ha, by simp only [TAct.enqueues, he]⟩
    rcases List.mem_append.mp (hcalls.mem_iff.mp hmem) with hm | hm
    · obtain ⟨y, hy, hye⟩ := List.mem_filterMap.mp hm
      exact never_matches (turn_criteria c t ls y hy e hye) now k
    · exact absurd hP (List.countP_eq_zero.mp ho e hm)) (by simp [fresh])
  have h2 : ((fresh paused).run as).calls.countP (Pending.awaits P) = 0 := by
    rw [List.countP_eq_zero]
    intro p hp
    obtain ⟨r, rfl⟩ := hdone p hp
    simp [Pending.awaits]
  rw [hcalls.countP_eq, List.countP_append, ho, one_each c t ls x hx j hj fun e _ => rfl, h2] at h1
  simp only [fresh, List.countP_nil] at h1
  show List.countP (storedP P) _ = 1
  simpa [fresh] using h1

/-- A cron job every second, for three turns, next to a unique enqueue of the same executor for another time
and a hand-out. -/
private def cronBeside : List TAct :=
  ((sampleCron.loop 0 [⟨0, 0, 0, 0⟩, ⟨0, 0, 0, 0⟩, ⟨0, 0, 0, 0⟩]).filterMap fun x => x.job.map fun j => TAct.mk x.at' (.start j)) ++
  [⟨0, .start sampleUnique⟩] ++
  [3, 0, 3, 1, 0, 2, 1, 0, 3, 2, 1, 0, 3, 2, 1, 0, 2, 1, 2].map (fun i => TAct.mk (3 * sec) (.advance i)) ++ [call (3 * sec) (.load "mail")]

example : (((fresh).run cronBeside).calls.all fun p => match p with | .done _ => true | _ => false) = true ∧
    cronBeside.filterMap TAct.enqueues =
      (sampleCron.loop 0 [⟨0, 0, 0, 0⟩, ⟨0, 0, 0, 0⟩, ⟨0, 0, 0, 0⟩]).filterMap (·.job) ++ [sampleUnique] ∧
    (sampleCron.loop 0 [⟨0, 0, 0, 0⟩, ⟨0, 0, 0, 0⟩, ⟨0, 0, 0, 0⟩]).map (fun x => (x.tick, x.job.isSome)) =
      [(1 * sec, true), (2 * sec, true), (3 * sec, true)] ∧
    sampleUnique.scheduledAt = 0 := by decide +kernel

/-! ## On Postgres -/

private def rowFor (x : String) (u : Time) (r : Row) : Bool := decide (r.executor = x ∧ r.scheduledAt = u)

private def jobFor (x : String) (u : Time) (e : EnqueuableJob) : Bool := decide (e.executor = x ∧ pgTime e.scheduledAt = u)

private theorem rowFor_toRow (x : String) (u : Time) (e : EnqueuableJob) (t : Time) (id : Int) (key : Option Int) :
    rowFor x u (e.toRow t id key) = jobFor x u e := rfl

private def Session.brings (x : String) (u : Time) : Session → Bool
  | .unique e _ _ => jobFor x u e
  | .holding e _ _ => jobFor x u e
  | .missing e _ _ => jobFor x u e
  | .inserted _ _ row => rowFor x u row
  | _ => false

private def pgStoredP (x : String) (u : Time) (y : TPgEv) : Bool :=
  match y.ev with
  | .inserted row _ => rowFor x u row
  | _ => false

private theorem pg_stored_count (hash : HashFn) (x : String) (u : Time) (h : Int) (as : List TPgAct)
    (hcut : ∀ a ∈ as, ∀ i, a.act ≠ .abort i)
    (hplain : ∀ a ∈ as, ∀ e, a.act = .plain e → jobFor x u e = false)
    (huniq : ∀ a ∈ as, ∀ e uc, a.act = .unique e uc → jobFor x u e = true → uc = cronCriteria h)
    (hkey : ∀ a ∈ as, ∀ e uc, a.act = .unique e uc → uc.identifier hash e.executor ≠ h)
    (hseq : (PgConc.run hash {} as).pg.seq < 2147483647) :
    ((PgConc.history hash {} as).countP (pgStoredP x u) + (PgConc.run hash {} as).sessions.countP (Session.brings x u) =
      (as.filterMap TPgAct.enqueues).countP (jobFor x u)) ∧
    (∀ e uc t, Session.unique e uc t ∈ (PgConc.run hash {} as).sessions ∨ Session.holding e uc t ∈ (PgConc.run hash {} as).sessions →
      jobFor x u e = true → uc = cronCriteria h) := by
  induction as using snoc_induction with
  | nil => exact ⟨rfl, by simp [PgConc.run]⟩
  | snoc as a ih =>
    have H := pgInv hash as
    have hle : (PgConc.run hash {} as).pg.seq ≤ (PgConc.run hash {} (as ++ [a])).pg.seq := by
      rw [PgConc.run_append]; exact seq_mono H hash a.tie a.now a.act
    obtain ⟨ih1, ih2⟩ := ih (fun b hb => hcut b (by simp [hb])) (fun b hb => hplain b (by simp [hb]))
      (fun b hb => huniq b (by simp [hb])) (fun b hb => hkey b (by simp [hb])) (by omega)
    have hrows : ∀ r ∈ (PgConc.run hash {} as).pg.rows, r.uniquenessKey ≠ some h := by
      intro r hr
      obtain ⟨t, row, uc, b, hb, ⟨⟨e, -, -, -, -, -, -, -, ha⟩, -⟩, -, -, hto⟩ := C104_on_postgres hash as r hr
      rw [hto.same.2.2]
      rcases ha with ⟨-, h1⟩ | ⟨uc', h1, h2⟩
      · rw [h1]; simp
      · rw [h2]
        intro hh
        exact hkey b (by simp [hb]) e uc' h1 (Option.some.inj hh)
    have hca := hcut a (by simp)
    have hpa := hplain a (by simp)
    have hua := huniq a (by simp)
    rw [PgConc.history_append, PgConc.run_append]
    rw [PgConc.run_append] at hle hseq
    generalize PgConc.history hash {} as = hist at ih1 ⊢
    generalize PgConc.run hash {} as = c at *
    obtain ⟨now, tie, act⟩ := a
    simp only [PgConc.history, PgConc.run, List.countP_append, List.filterMap_append, cnt_cons, List.countP_nil, Nat.zero_add]
    simp only [PgConc.run] at hseq hle
    cases act with
    | handout y =>
      refine ⟨?_, ?_⟩
      · simp only [PgConc.step, pgStoredP, List.countP_append, cnt_cons, List.countP_nil, Session.brings, TPgAct.enqueues,
          List.filterMap_cons, List.filterMap_nil, Bool.toNat_false]
        omega
      · intro e uc t hs
        simp only [PgConc.step, List.mem_append, List.mem_singleton, reduceCtorEq, or_false] at hs
        exact ih2 e uc t hs
    | unique e uc =>
      refine ⟨?_, ?_⟩
      · simp only [PgConc.step, pgStoredP, List.countP_append, cnt_cons, List.countP_nil, Session.brings, TPgAct.enqueues,
          List.filterMap_cons, List.filterMap_nil, Bool.toNat_false]
        show _ = _ + (0 + (jobFor x u e).toNat)
        omega
      · intro e' uc' t hs
        simp only [PgConc.step, List.mem_append, List.mem_singleton, reduceCtorEq, or_false, Session.unique.injEq] at hs
        rcases hs with (hs | ⟨rfl, rfl, -⟩) | hs
        · exact ih2 e' uc' t (.inl hs)
        · exact hua _ _ rfl
        · exact ih2 e' uc' t (.inr hs)
    | abort i => exact absurd rfl (hca i)
    | plain e =>
      have hP := hpa e rfl
      refine ⟨?_, ?_⟩
      · simp only [TPgAct.enqueues, List.filterMap_cons, List.filterMap_nil, cnt_cons, List.countP_nil]
        have h1 : jobFor x u { e with criteria := none } = false := hP
        simp only [h1, PgConc.step]
        split <;> simp only [pgStoredP, rowFor_toRow, hP, Bool.toNat_false] <;> omega
      · intro e' uc' t hs
        simp only [PgConc.step] at hs
        split at hs <;> exact ih2 e' uc' t hs
    | stmt o =>
      have hses : (c.step hash tie now (.stmt o)).2.sessions = c.sessions := by
        cases o <;> simp only [PgConc.step] <;> first | rfl | (split <;> rfl)
      have hev : pgStoredP x u ⟨now, (c.step hash tie now (.stmt o)).1⟩ = false := by
        have : ∀ row uc, (c.step hash tie now (.stmt o)).1 ≠ .inserted row uc := by
          intro row uc hh
          cases o <;> simp only [PgConc.step] at hh <;> first | (split at hh <;> cases hh) | cases hh
        simp only [pgStoredP]
      refine ⟨?_, ?_⟩
      · simp only [TPgAct.enqueues, List.filterMap_cons, List.filterMap_nil, List.countP_nil, hses, hev, Bool.toNat_false]
        omega
      · rw [hses]; exact ih2
    | advance i =>
      simp only [TPgAct.enqueues, List.filterMap_cons, List.filterMap_nil, List.countP_nil]
      cases hi : c.sessions[i]? with
      | none =>
        simp only [PgConc.step, hi, pgStoredP, Bool.toNat_false]
        exact ⟨by omega, ih2⟩
      | some s =>
        have hm := List.mem_of_getElem? hi
        have go : ∀ ev s' p', c.advance hash tie now s = (ev, s', p') →
            (∀ e uc t, s' = .unique e uc t ∨ s' = .holding e uc t → jobFor x u e = true → uc = cronCriteria h) →
            (pgStoredP x u ⟨now, ev⟩).toNat + (s'.brings x u).toNat = (s.brings x u).toNat →
            ((hist.countP (pgStoredP x u) + (pgStoredP x u ⟨now, (c.step hash tie now (.advance i)).1⟩).toNat +
                (c.step hash tie now (.advance i)).2.sessions.countP (Session.brings x u) =
              (as.filterMap TPgAct.enqueues).countP (jobFor x u) + 0) ∧
            (∀ e uc t, Session.unique e uc t ∈ (c.step hash tie now (.advance i)).2.sessions ∨
                Session.holding e uc t ∈ (c.step hash tie now (.advance i)).2.sessions →
              jobFor x u e = true → uc = cronCriteria h)) := by
          intro ev s' p' hadv hs' hcount
          have hset := cnt_set (P := Session.brings x u) (b := s') hi
          simp only [PgConc.step, hi, hadv]
          refine ⟨by omega, ?_⟩
          intro e uc t hs
          rcases hs with hs | hs
          · rcases List.mem_or_eq_of_mem_set hs with hs | hs
            · exact ih2 e uc t (.inl hs)
            · exact hs' e uc t (.inl hs.symm)
          · rcases List.mem_or_eq_of_mem_set hs with hs | hs
            · exact ih2 e uc t (.inr hs)
            · exact hs' e uc t (.inr hs.symm)
        cases s with
        | handout y => exact go _ _ _ rfl (by simp) rfl
        | done r => exact go _ _ _ rfl (by simp) rfl
        | looking y t snap =>
          cases hf : (sortBy (Row.before tie) (snap.filter (Row.ready t y))).find? fun r =>
              !c.rowLocked r.id && c.pg.rows.any fun r' => r'.id == r.id && r'.ready t y with
          | none => exact go .noJob (.done (.job none)) c.pg (by simp only [PgConc.advance, hf]) (by simp) rfl
          | some r => exact go .internal (.locked y t r.id) c.pg (by simp only [PgConc.advance, hf]) (by simp) rfl
        | locked y t id =>
          have : ∃ ev r p', c.advance hash tie now (.locked y t id) = (ev, .done r, p') ∧ pgStoredP x u ⟨now, ev⟩ = false := by
            simp only [PgConc.advance]
            split
            · exact ⟨_, _, _, rfl, rfl⟩
            · exact ⟨_, _, _, rfl, rfl⟩
          obtain ⟨ev, r, p', h1, h2⟩ := this
          exact go _ _ _ h1 (by simp) (by rw [h2]; rfl)
        | unique e uc t =>
          by_cases hl : c.advisoryLocked hash (uc.identifier hash e.executor) = true
          · refine go .blocked (.unique e uc t) c.pg (by simp only [PgConc.advance, hl, if_true]) ?_ (by simp [pgStoredP])
            rintro e' uc' t' (h1 | h1)
            · cases h1; exact ih2 e uc t (.inl hm)
            · cases h1
          · refine go .internal (.holding e uc t) c.pg (by simp only [PgConc.advance, if_neg hl]) ?_ (by simp [pgStoredP, Session.brings])
            rintro e' uc' t' (h1 | h1)
            · cases h1
            · cases h1; exact ih2 e uc t (.inl hm)
        | holding e uc t =>
          cases hf : sortBy (fun a b => decide (tie a.id ≤ tie b.id)) (c.pg.rows.filter fun r => uc.finds e.executor e.scheduledAt r) with
          | nil => exact go (.checked none) (.missing e uc t) c.pg (by simp only [PgConc.advance, hf]) (by simp) (by simp [pgStoredP, Session.brings])
          | cons r rs =>
            refine go (.checked (some r.id)) (.found e uc r.id r.status) c.pg (by simp only [PgConc.advance, hf]) (by simp) ?_
            cases hP : jobFor x u e with
            | false => simp [pgStoredP, Session.brings, hP]
            | true =>
              exfalso
              have hr : r ∈ sortBy (fun a b => decide (tie a.id ≤ tie b.id))
                  (c.pg.rows.filter fun r => uc.finds e.executor e.scheduledAt r) := by rw [hf]; simp
              have hr' := List.mem_filter.mp ((sortBy_perm _ _).mem_iff.mp hr)
              rw [ih2 e uc t (.inr hm) hP] at hr'
              have := hr'.2
              simp only [Criteria.finds, cronCriteria, Criteria.andExecutor, Criteria.andKey, Bool.and_eq_true, beq_iff_eq] at this
              exact hrows r hr'.1 this.1.1.2
        | missing e uc t =>
          have hs : ¬ c.pg.seq ≥ 2147483647 := by omega
          exact go .internal _ _ (by simp only [PgConc.advance, if_neg hs]; rfl) (by simp) (by simp [pgStoredP, Session.brings, rowFor_toRow])
        | inserted e uc row => exact go _ _ _ rfl (by simp) (by simp [pgStoredP, Session.brings])
        | found e uc id st =>
          have : ∃ s' p' ev, c.advance hash tie now (.found e uc id st) = (ev, s', p') ∧ pgStoredP x u ⟨now, ev⟩ = false ∧
              s'.brings x u = false ∧ (∀ e uc t, s' ≠ .unique e uc t ∧ s' ≠ .holding e uc t) := by
            simp only [PgConc.advance]
            split
            · split
              · split
                · exact ⟨_, _, _, rfl, rfl, rfl, by simp⟩
                · split <;> exact ⟨_, _, _, rfl, rfl, rfl, by simp⟩
              · exact ⟨_, _, _, rfl, rfl, rfl, by simp⟩
            · exact ⟨_, _, _, rfl, rfl, rfl, by simp⟩
          obtain ⟨s', p', ev, h1, h2, h3, h4⟩ := this
          refine go _ _ _ h1 ?_ (by rw [h2, h3]; rfl)
          rintro e' uc' t' (hh | hh)
          · exact absurd hh (h4 e' uc' t').1
          · exact absurd hh (h4 e' uc' t').2
        | replacing e uc rep id => exact go _ _ _ rfl (by simp) rfl

/-- **C118, on Postgres.** Take any schedule of calls from any number of nodes, however they overlap, in
which none is cut off and the `enqueue` calls are those of one cron runner, delayed in any way, and
others, none of which is for the same executor and one of its ticks. Suppose ticks are
at whole microseconds, the ids have not run out, and no uniqueness criteria in use (those
of the cron job among them) hash to the key of the cron job. Once all calls
have returned, exactly one job of the executor has been stored for every tick the runner served. -/
theorem C118_on_postgres (hash : HashFn) (c : Cron D M) (t : Time) (ls : List Lags) (as : List TPgAct) (others : List EnqueuableJob)
    (hcalls : (as.filterMap TPgAct.enqueues).Perm ((c.loop t ls).filterMap (·.job) ++ others))
    (hothers : ∀ e ∈ others, e.executor = c.consts.name → ∀ x ∈ c.loop t ls, pgTime e.scheduledAt ≠ x.tick)
    (hwhole : ∀ x ∈ c.loop t ls, 1000 ∣ x.tick)
    (hcut : ∀ a ∈ as, ∀ i, a.act ≠ .abort i)
    (hkey : ∀ a ∈ as, ∀ e uc, a.act = .unique e uc → uc.identifier hash e.executor ≠ c.keyHash)
    (hseq : (PgConc.run hash {} as).pg.seq < 2147483647)
    (hdone : ∀ s ∈ (PgConc.run hash {} as).sessions, ∃ r, s = .done r)
    (x : Turn) (hx : x ∈ c.loop t ls) (hj : x.job ≠ none) :
    pgStoredFor c.consts.name x.tick (PgConc.history hash {} as) = 1 := by
  obtain ⟨j, hj⟩ := Option.ne_none_iff_exists'.mp hj
  have ho : others.countP (jobFor c.consts.name x.tick) = 0 := by
    rw [List.countP_eq_zero]
    intro e he
    simp only [jobFor, decide_eq_true_eq]
    rintro ⟨h1, h2⟩
    exact hothers e he h1 x hx h2
  have mine : ∀ a ∈ as, ∀ e, a.enqueues = some e → jobFor c.consts.name x.tick e = true → e.criteria = some (cronCriteria c.keyHash) := by
    intro a ha e he hP
    rcases List.mem_append.mp (hcalls.mem_iff.mp (List.mem_filterMap.mpr ⟨a, ha, he⟩)) with hm | hm
    · obtain ⟨y, hy, hye⟩ := List.mem_filterMap.mp hm
      exact turn_criteria c t ls y hy e hye
    · exact absurd hP (List.countP_eq_zero.mp ho e hm)
  have h1 := (pg_stored_count hash c.consts.name x.tick c.keyHash as hcut (by
      intro a ha e he
      cases hP : jobFor c.consts.name x.tick e with
      | false => rfl
      | true =>
        have := mine a ha { e with criteria := none } (by simp only [TPgAct.enqueues, he]) hP
        simp at this) (by
      intro a ha e uc he hP
      have := mine a ha { e with criteria := some uc } (by simp only [TPgAct.enqueues, he]) hP
      exact Option.some.inj this) hkey hseq).1
  have h2 : (PgConc.run hash {} as).sessions.countP (Session.brings c.consts.name x.tick) = 0 := by
    rw [List.countP_eq_zero]
    intro p hp
    obtain ⟨r, rfl⟩ := hdone p hp
    simp [Session.brings]
  rw [hcalls.countP_eq, List.countP_append, ho, one_each c t ls x hx j hj, h2] at h1
  · exact h1
  · rintro e ⟨y, hy, hye⟩
    have := (C40_job c t ls y hy e hye).1
    simp only [jobFor, this, pgTime_whole (hwhole y hy)]

/-- The same three turns on Postgres, next to hand-outs and a plain enqueue for another time. -/
private def cronBesidePg : List TPgAct :=
  ((sampleCron.loop 0 [⟨0, 0, 0, 0⟩, ⟨0, 0, 0, 0⟩, ⟨0, 0, 0, 0⟩]).filterMap fun x =>
    x.job.map fun j => pgAct x.at' (.unique j (cronCriteria 17))) ++
  [pgAct 0 (.handout "mail"), pgAct 0 (.plain sampleEnq)] ++
  [3, 0, 1, 0, 1, 2, 3, 0, 3, 0, 1, 1, 2, 1, 1, 2, 2, 2, 2].map (fun i => pgAct (3 * sec) (.advance i))

example : ((PgConc.run sampleHash {} cronBesidePg).sessions.all fun p => match p with | .done _ => true | _ => false) = true ∧
    cronBesidePg.filterMap TPgAct.enqueues =
      (sampleCron.loop 0 [⟨0, 0, 0, 0⟩, ⟨0, 0, 0, 0⟩, ⟨0, 0, 0, 0⟩]).filterMap (·.job) ++ [sampleEnq] ∧
    sampleHash (some 17) (some "mail") [.scheduled] ≠ 17 ∧ (PgConc.run sampleHash {} cronBesidePg).pg.seq = 4 ∧
    [1, 2, 3].map (fun k => pgStoredFor "mail" (k * sec) (PgConc.history sampleHash {} cronBesidePg)) = [1, 1, 1] := by
  decide +kernel

end Rexecutor
