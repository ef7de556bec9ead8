import Verif.Model.Locks
import Verif.Spec.Samples

/-!
# C114: the locks of the in-memory backend make its calls atomic
-/

namespace Rexecutor

/-- The step of the call has taken effect: it is over and returned this. -/
def Thread.effect (c : Thread) : Option (Op × Res) :=
  match c.phase, c.pos with
  | .leaving (.returned o r), _ => some (o, r)
  | _, .returned o r => some (o, r)
  | _, _ => none

/-- Where the `enqueue` call of a thread is in atomic steps. -/
def Thread.enqueueing (c : Thread) : Option Pending :=
  match c.phase, c.pos with
  | .leaving (.enqueue p), .enqueue _ => some p
  | _, .enqueue p => some p
  | _, _ => none

/-- The thread has changed the jobs and not yet notified anybody. -/
def Thread.owes (c : Thread) : Option Time :=
  match c.phase with
  | .told t _ _ _ => some t
  | .telling t _ _ _ => some t
  | _ => none

/-- The event is the return of a call of one step. -/
def TEv.opResult (e : TEv) : Option (Op × Res) :=
  match e.ev with
  | .op o r => some (o, r)
  | _ => none

/-- The calls that read the clock before they have the lock. -/
def TAct.clockFirst (a : TAct) : Bool :=
  match a.act with
  | .op (.prune _) => true
  | .op .notifyAll => true
  | _ => false

/-! ## Lists -/

private theorem filterMap_set_same {α β : Type _} {g : α → Option β} {l : List α} {i : Nat} {a a' : α} (h : l[i]? = some a)
    (hg : g a' = g a) : (l.set i a').filterMap g = l.filterMap g := by
  induction l generalizing i with
  | nil => simp at h
  | cons b l ih =>
    cases i with
    | zero =>
      simp only [List.getElem?_cons_zero, Option.some.injEq] at h
      subst h
      simp only [List.set_cons_zero, List.filterMap_cons, hg]
    | succ i =>
      simp only [List.set_cons_succ, List.filterMap_cons, ih (i := i) (by simpa using h)]

private theorem filterMap_set_some {α β : Type _} {g : α → Option β} {l : List α} {i : Nat} {a a' : α} {x y : β} (h : l[i]? = some a)
    (hx : g a = some x) (hy : g a' = some y) :
    (l.filterMap g)[((l.take i).filterMap g).length]? = some x ∧
      (l.set i a').filterMap g = (l.filterMap g).set ((l.take i).filterMap g).length y := by
  induction l generalizing i with
  | nil => simp at h
  | cons b l ih =>
    cases i with
    | zero =>
      simp only [List.getElem?_cons_zero, Option.some.injEq] at h
      subst h
      simp [hx, hy]
    | succ i =>
      obtain ⟨h1, h2⟩ := ih (i := i) (by simpa using h)
      simp only [List.set_cons_succ, List.take_succ_cons, List.filterMap_cons]
      cases g b with
      | none => exact ⟨h1, h2⟩
      | some z => simp [h1, h2]

private theorem filterMap_set_new {α β : Type _} {g : α → Option β} {l : List α} {i : Nat} {a a' : α} {y : β} (h : l[i]? = some a)
    (hx : g a = none) (hy : g a' = some y) : (l.filterMap g ++ [y]).Perm ((l.set i a').filterMap g) := by
  induction l generalizing i with
  | nil => simp at h
  | cons b l ih =>
    cases i with
    | zero =>
      simp only [List.getElem?_cons_zero, Option.some.injEq] at h
      subst h
      simp only [List.set_cons_zero, List.filterMap_cons, hx, hy]
      exact List.perm_append_comm
    | succ i =>
      have := ih (i := i) (by simpa using h)
      simp only [List.set_cons_succ, List.filterMap_cons]
      cases g b with
      | none => exact this
      | some z => exact this.cons z

/-! ## A step of the atomic backend, in two parts -/

/-- the atomic action that a step of a call is -/
private def Pos.act (p : Pos) (k : Nat) : Act :=
  match p with
  | .op o => .op o
  | .returned o _ => .op o
  | .enqueue _ => .advance k

private def notified (paused : Bool) (n : Option (String × Time)) (subs : List Sub) : List Sub :=
  match n with
  | none => subs
  | some (x, t) => if paused then subs else tell x t subs

private theorem onJob_byId (id : Int) (f : Job → Job) (wake : Bool) (m : Mem) :
    m.onJob id f wake = ((byId id f wake m.jobs).1, { m with
      jobs := (byId id f wake m.jobs).2.1, subs := notified m.paused (byId id f wake m.jobs).2.2 m.subs }) := by
  simp only [Mem.onJob, byId]
  cases updateById id f m.jobs with
  | none => rfl
  | some p =>
    cases wake with
    | false => rfl
    | true => cases hp : m.paused <;> simp [Mem.notify, notified, tell, hp]

private theorem load_jobs (now : Time) (x : String) (m : Mem) :
    m.load now x = ((Mem.load now x { jobs := m.jobs }).1, { m with jobs := (Mem.load now x { jobs := m.jobs }).2.jobs }) := by
  simp only [Mem.load]
  split <;> rfl

private theorem prune_jobs (now : Time) (spec : PruneSpec) (m : Mem) :
    m.prune now spec = { m with jobs := (Mem.prune now spec { jobs := m.jobs }).jobs } := by
  simp only [Mem.prune]
  split <;> rfl

private theorem op_jobs {o : Op} {now : Time} {m : Mem} {b : Bool} {md : LockMode} (h : (Pos.op o).needs b = .jobs md) :
    m.step now o = ((o.onJobs now m.jobs).1, { m with
      jobs := (o.onJobs now m.jobs).2.1, subs := notified m.paused (o.onJobs now m.jobs).2.2 m.subs }) := by
  cases o with
  | complete id => exact onJob_byId ..
  | retryable id n e => exact onJob_byId ..
  | discarded id e => exact onJob_byId ..
  | cancelled id e => exact onJob_byId ..
  | snoozed id n => exact onJob_byId ..
  | rerun id => exact onJob_byId ..
  | update job => exact onJob_byId ..
  | prune spec => simp only [Mem.step, Op.onJobs, notified]; rw [prune_jobs]
  | query q => rfl
  | load x => simp only [Mem.step, Op.onJobs, notified]; rw [load_jobs]
  | subscribe x => cases h
  | notifyAll => cases h

/-- what an atomic step of a call is to amount to -/
private structure Does (c : Conc) (now : Time) (p : Pos) (k : Nat) (next : Pos) (m : Mem) : Prop where
  mem : (c.step now (p.act k)).2.mem = m
  op : ∀ o, p = .op o → ∃ r, next = .returned o r ∧ (c.step now (p.act k)).1 = .op o r ∧ (c.step now (p.act k)).2.calls = c.calls
  enq : ∀ q, p = .enqueue q → ∃ q', next = .enqueue q' ∧ (∀ o r, (c.step now (p.act k)).1 ≠ .op o r) ∧
    (c.step now (p.act k)).2.calls = c.calls.set k q'

private theorem does_jobs {c : Conc} {now : Time} {p : Pos} {k : Nat} {b : Bool} {md : LockMode} {next : Pos} {jobs : List KeyedJob}
    {n : Option (String × Time)} (hn : p.needs b = .jobs md) (hk : ∀ q, p = .enqueue q → c.calls[k]? = some q)
    (hd : p.onJobs now c.mem.jobs = (next, jobs, n)) :
    Does c now p k next { c.mem with jobs := jobs, subs := notified c.mem.paused n c.mem.subs } := by
  cases p with
  | op o =>
    have := op_jobs (now := now) (m := c.mem) hn
    simp only [Pos.onJobs, Prod.mk.injEq] at hd
    obtain ⟨h1, h2⟩ := hd
    rw [h2] at this
    refine ⟨by simp [Pos.act, Conc.step, this], ?_, fun q h => nomatch h⟩
    rintro o' ho
    cases ho
    exact ⟨_, h1.symm, by simp [Pos.act, Conc.step, this], rfl⟩
  | returned o r => cases hn
  | enqueue q =>
    have hk := hk q rfl
    cases q with
    | start e =>
      simp only [Pos.needs] at hn
      cases hc : e.criteria with
      | none => rw [hc] at hn; cases hn
      | some cr =>
        simp only [Pos.onJobs] at hd
        cases hf : c.mem.jobs.filter fun k => e.matches now k with
        | nil =>
          rw [hf] at hd
          cases hd
          refine ⟨by simp [Pos.act, Conc.step, hk, Mem.advance, hc, hf, notified], (fun o h => nomatch h), ?_⟩
          intro q hq
          exact ⟨_, rfl, by simp [Pos.act, Conc.step, hk, Mem.advance, hc, hf], by simp [Pos.act, Conc.step, hk, Mem.advance, hc, hf]⟩
        | cons j js =>
          rw [hf] at hd
          cases hd
          refine ⟨by simp [Pos.act, Conc.step, hk, Mem.advance, hc, hf, notified], (fun o h => nomatch h), ?_⟩
          intro q hq
          exact ⟨_, rfl, by simp [Pos.act, Conc.step, hk, Mem.advance, hc, hf], by simp [Pos.act, Conc.step, hk, Mem.advance, hc, hf]⟩
    | noMatch e => cases hn
    | allocated id e =>
      cases hd
      refine ⟨by simp [Pos.act, Conc.step, hk, Mem.advance, notified], (fun o h => nomatch h), ?_⟩
      intro q hq
      exact ⟨_, rfl, by simp [Pos.act, Conc.step, hk, Mem.advance], by simp [Pos.act, Conc.step, hk, Mem.advance]⟩
    | pushed id e => simp only [Pos.needs] at hn; split at hn <;> cases hn
    | matched job =>
      have hu : c.mem.update job = _ := onJob_byId job.id (fun _ => job) true c.mem
      simp only [Pos.onJobs] at hd
      simp only [byId] at hd hu
      cases hb : updateById job.id (fun _ => job) c.mem.jobs with
      | none =>
        rw [hb] at hd hu
        cases hd
        refine ⟨by simp [Pos.act, Conc.step, hk, Mem.advance, hu, notified], (fun o h => nomatch h), ?_⟩
        intro q hq
        exact ⟨_, rfl, by simp [Pos.act, Conc.step, hk, Mem.advance, hu], by simp [Pos.act, Conc.step, hk, Mem.advance, hu]⟩
      | some x =>
        rw [hb] at hd hu
        cases hd
        refine ⟨by simp [Pos.act, Conc.step, hk, Mem.advance, hu], (fun o h => nomatch h), ?_⟩
        intro q hq
        exact ⟨_, rfl, by simp [Pos.act, Conc.step, hk, Mem.advance, hu], by simp [Pos.act, Conc.step, hk, Mem.advance, hu]⟩
    | done r => cases hn

private theorem does_subs {c : Conc} {now : Time} {p : Pos} {k : Nat} {md : LockMode} (hn : p.needs c.mem.paused = .subs md)
    (hk : ∀ q, p = .enqueue q → c.calls[k]? = some q) :
    Does c now p k (p.onSubs now c.mem.subs).1 { c.mem with subs := (p.onSubs now c.mem.subs).2 } := by
  cases p with
  | op o =>
    cases o with
    | subscribe x =>
      refine ⟨rfl, ?_, fun q h => nomatch h⟩
      rintro o ho; cases ho; exact ⟨_, rfl, rfl, rfl⟩
    | notifyAll =>
      refine ⟨rfl, ?_, fun q h => nomatch h⟩
      rintro o ho; cases ho; exact ⟨_, rfl, rfl, rfl⟩
    | _ => cases hn
  | returned o r => cases hn
  | enqueue q =>
    have hk := hk q rfl
    cases q with
    | start e => simp only [Pos.needs] at hn; split at hn <;> cases hn
    | pushed id e =>
      simp only [Pos.needs] at hn
      split at hn
      · cases hn
      · rename_i hp
        refine ⟨by simp [Pos.act, Conc.step, hk, Mem.advance, Pos.onSubs, Mem.notify, tell, hp], (fun o h => nomatch h), ?_⟩
        intro q hq
        exact ⟨_, rfl, by simp [Pos.act, Conc.step, hk, Mem.advance], by simp [Pos.act, Conc.step, hk, Mem.advance]⟩
    | _ => cases hn

private theorem does_nothing {c : Conc} {now : Time} {p : Pos} {k : Nat} (hn : p.needs c.mem.paused = .nothing) (ho : p.isOver = false)
    (hk : ∀ q, p = .enqueue q → c.calls[k]? = some q) :
    Does c now p k (p.onNothing c.mem.allocated).1 { c.mem with allocated := (p.onNothing c.mem.allocated).2 } := by
  cases p with
  | op o => cases o <;> cases hn
  | returned o r => cases ho
  | enqueue q =>
    have hk := hk q rfl
    cases q with
    | start e =>
      simp only [Pos.needs] at hn
      cases hc : e.criteria with
      | some cr => rw [hc] at hn; cases hn
      | none =>
        refine ⟨by simp [Pos.act, Conc.step, hk, Mem.advance, hc, Pos.onNothing], (fun o h => nomatch h), ?_⟩
        intro q hq
        exact ⟨_, rfl, by simp [Pos.act, Conc.step, hk, Mem.advance, hc], by simp [Pos.act, Conc.step, hk, Mem.advance, hc]⟩
    | noMatch e =>
      refine ⟨by simp [Pos.act, Conc.step, hk, Mem.advance, Pos.onNothing], (fun o h => nomatch h), ?_⟩
      intro q hq
      exact ⟨_, rfl, by simp [Pos.act, Conc.step, hk, Mem.advance], by simp [Pos.act, Conc.step, hk, Mem.advance]⟩
    | allocated id e => cases hn
    | matched job => cases hn
    | pushed id e =>
      simp only [Pos.needs] at hn
      split at hn
      · rename_i hp
        refine ⟨by simp [Pos.act, Conc.step, hk, Mem.advance, Pos.onNothing, Mem.notify, hp]; rw [← hp], (fun o h => nomatch h), ?_⟩
        intro q hq
        exact ⟨_, rfl, by simp [Pos.act, Conc.step, hk, Mem.advance], by simp [Pos.act, Conc.step, hk, Mem.advance]⟩
      · cases hn
    | done r => cases ho

/-! ## The atomic schedule of a schedule -/

/-- the time at which an action that needs no clock is put -/
private def Fine.stamp (s : Fine) (now : Time) : Time := ((s.threads.filterMap Thread.owes).head?).getD now

/-- the atomic action of thread `i` -/
private def Fine.actOf (s : Fine) (i : Nat) (p : Pos) : Act := p.act ((s.threads.take i).filterMap Thread.enqueueing).length

private def Fine.emitAt (now : Time) (s : Fine) (i : Nat) (c : Thread) : List TAct :=
  match c.phase with
  | .out =>
    if c.pos.isOver then []
    else if c.pos.clockFirst then []
    else match c.pos.needs s.paused with
      | .nothing => [⟨s.stamp now, s.actOf i c.pos⟩]
      | _ => []
  | .ticked _ => []
  | .inside t =>
    match c.pos.needs s.paused with
    | .jobs _ =>
      match c.pos.onJobs (t.getD now) s.jobs with
      | (_, _, none) => [⟨t.getD now, s.actOf i c.pos⟩]
      | _ => []
    | .subs _ => [⟨if c.pos.clockFirst then t.getD now else s.stamp now, s.actOf i c.pos⟩]
    | .nothing => []
  | .told t _ _ _ => if s.paused then [⟨t, s.actOf i c.pos⟩] else []
  | .telling t _ _ _ => [⟨t, s.actOf i c.pos⟩]
  | .leaving _ => []

private def Fine.emit (now : Time) (s : Fine) : FineAct → List TAct
  | .call _ => []
  | .enqueue e => [⟨s.stamp now, .start e⟩]
  | .advance i =>
    match s.threads[i]? with
    | none => []
    | some c => s.emitAt now i c

private def Fine.atomic (s : Fine) : List TFineAct → List TAct
  | [] => []
  | a :: as => s.emit a.now a.act ++ Fine.atomic (s.step a.now a.act).2 as

/-! ## Simulation -/

private def Thread.owing (c : Thread) (t : Time) (next : Pos) (x : String) (at' : Time) : Prop :=
  c.phase = .told t next x at' ∨ c.phase = .telling t next x at'

private structure FineSim (s : Fine) (c : Conc) : Prop where
  allocated : c.mem.allocated = s.allocated
  subs : c.mem.subs = s.subs
  paused : c.mem.paused = s.paused
  calls : c.calls = s.threads.filterMap Thread.enqueueing
  jobs : (∀ th ∈ s.threads, th.owes = none) → c.mem.jobs = s.jobs
  owing : ∀ th ∈ s.threads, ∀ t next x at', th.owing t next x at' →
    th.pos.needs s.paused = .jobs .write ∧ th.pos.onJobs t c.mem.jobs = (next, s.jobs, some (x, at'))
  telling : ∀ th ∈ s.threads, ∀ t next x at', th.phase = .telling t next x at' → s.paused = false
  excl : ∀ (i j : Nat) (th th' : Thread), s.threads[i]? = some th → s.threads[j]? = some th' → th.holdsJobs s.paused = some .write →
    th'.holdsJobs s.paused ≠ none → i = j
  leaving : ∀ th ∈ s.threads, ∀ next, th.phase = .leaving next →
    (∃ o r, th.pos = .op o ∧ next = .returned o r) ∨ (∃ p q, th.pos = .enqueue p ∧ next = .enqueue q)

private theorem owes_none {c : Thread} (h : c.owes = none) {t next x at'} : ¬ c.owing t next x at' := by
  rintro (h' | h') <;> simp [Thread.owes, h'] at h

private theorem owes_some {c : Thread} {t : Time} (h : c.owes = some t) : ∃ next x at', c.owing t next x at' := by
  unfold Thread.owes at h
  split at h
  · rename_i h'; cases h; exact ⟨_, _, _, .inl h'⟩
  · rename_i h'; cases h; exact ⟨_, _, _, .inr h'⟩
  · cases h

private theorem owing_owes {c : Thread} {t next x at'} (h : c.owing t next x at') : c.owes = some t := by
  rcases h with h | h <;> simp [Thread.owes, h]

private theorem owing_holds {b : Bool} {c : Thread} {t next x at'} (h : c.owing t next x at') (hn : c.pos.needs b = .jobs .write) :
    c.holdsJobs b = some .write := by
  rcases h with h | h <;> simp [Thread.holdsJobs, h, hn]

private theorem set_cases {l : List Thread} {i : Nat} {a th : Thread} (h : th ∈ l.set i a) :
    th = a ∨ ∃ j, j ≠ i ∧ l[j]? = some th := by
  obtain ⟨j, hj⟩ := List.getElem?_of_mem h
  rw [List.getElem?_set] at hj
  split at hj
  · split at hj
    · cases hj; exact .inl rfl
    · cases hj
  · rename_i hne; exact .inr ⟨j, fun h => hne h.symm, hj⟩

/-- Nobody owes a notification while somebody else holds the lock on the jobs. -/
private theorem FineSim.others {s : Fine} {c : Conc} (h : FineSim s c) {i : Nat} {th : Thread} (hi : s.threads[i]? = some th)
    (hh : th.holdsJobs s.paused ≠ none) {j : Nat} {th' : Thread} (hj : s.threads[j]? = some th') (hne : j ≠ i) :
    th'.owes = none := by
  cases ho : th'.owes with
  | none => rfl
  | some t =>
    obtain ⟨_, _, _, hw⟩ := owes_some ho
    exact absurd (h.excl j i th' th hj hi (owing_holds hw (h.owing th' (List.mem_of_getElem? hj) _ _ _ _ hw).1) hh) hne

/-- who may hold the jobs after thread `i` has become `th'` -/
private theorem excl_set {s : Fine} {c : Conc} (h : FineSim s c) {i : Nat} {th th' : Thread} (hi : s.threads[i]? = some th)
    (hx : th'.holdsJobs s.paused = none ∨ th'.holdsJobs s.paused = th.holdsJobs s.paused ∨
      ∃ m, th'.holdsJobs s.paused = some m ∧ s.jobsFree m = true) :
    ∀ (a b : Nat) (x y : Thread), (s.threads.set i th')[a]? = some x → (s.threads.set i th')[b]? = some y →
      x.holdsJobs s.paused = some .write → y.holdsJobs s.paused ≠ none → a = b := by
  have hlt : i < s.threads.length := (List.getElem?_eq_some_iff.mp hi).1
  intro a b x y ha hb hx' hy'
  rw [List.getElem?_set] at ha hb
  by_cases h1 : i = a
  · by_cases h2 : i = b
    · omega
    · rw [if_pos h1, if_pos hlt] at ha
      rw [if_neg h2] at hb
      cases ha
      rcases hx with hx | hx | ⟨m, hm, hf⟩
      · rw [hx] at hx'; cases hx'
      · rw [hx] at hx'
        exact h1 ▸ h.excl i b th y hi hb hx' hy'
      · rw [hm] at hx'
        cases hx'
        simp only [Fine.jobsFree, List.all_eq_true] at hf
        exact absurd (by simpa using hf y (List.mem_of_getElem? hb)) hy'
  · by_cases h2 : i = b
    · rw [if_neg h1] at ha
      rw [if_pos h2, if_pos hlt] at hb
      cases hb
      rcases hx with hx | hx | ⟨m, hm, hf⟩
      · exact absurd hx hy'
      · rw [hx] at hy'
        exact h2 ▸ h.excl a i x th ha hi hx' hy'
      · have := List.mem_of_getElem? ha
        cases m <;> simp only [Fine.jobsFree, List.all_eq_true] at hf
        · have := hf x this
          simp [hx'] at this
        · have := hf x this
          simp [hx'] at this
    · rw [if_neg h1] at ha
      rw [if_neg h2] at hb
      exact h.excl a b x y ha hb hx' hy'

/-- A step of a thread that has no effect. -/
private theorem FineSim.silent {s : Fine} {c : Conc} (h : FineSim s c) {i : Nat} {th th' : Thread} (hi : s.threads[i]? = some th)
    (he : th'.enqueueing = th.enqueueing)
    (ho : ∀ t next x at', th'.owing t next x at' → th.owing t next x at' ∧ th'.pos = th.pos)
    (ho' : th.owes ≠ none → th'.owes ≠ none)
    (ht : ∀ t next x at', th'.phase = .telling t next x at' → s.paused = false)
    (hx : th'.holdsJobs s.paused = none ∨ th'.holdsJobs s.paused = th.holdsJobs s.paused ∨
      ∃ m, th'.holdsJobs s.paused = some m ∧ s.jobsFree m = true)
    (hl : ∀ next, th'.phase ≠ .leaving next) : FineSim (s.setThread i th') c := by
  refine ⟨h.allocated, h.subs, h.paused, ?_, ?_, ?_, ?_, excl_set h hi hx, ?_⟩
  · simp only [Fine.setThread]
    rw [filterMap_set_same hi he]
    exact h.calls
  · intro hn
    refine h.jobs fun y hy => ?_
    obtain ⟨j, hj⟩ := List.getElem?_of_mem hy
    have hlt : i < s.threads.length := (List.getElem?_eq_some_iff.mp hi).1
    by_cases hij : j = i
    · subst hij
      rw [hi] at hj
      cases hj
      cases hth : th.owes with
      | none => rfl
      | some t =>
        exact absurd (hn th' (List.mem_of_getElem? (i := j) (by simp [Fine.setThread, hlt]))) (ho' (by simp [hth]))
    · exact hn y (List.mem_of_getElem? (i := j) (by simp only [Fine.setThread]; rw [List.getElem?_set_ne (fun h => hij h.symm)]; exact hj))
  · intro y hy t next x at' hw
    rcases set_cases hy with rfl | ⟨j, hj, hy⟩
    · obtain ⟨hw', hp⟩ := ho _ _ _ _ hw
      rw [hp]
      exact h.owing th (List.mem_of_getElem? hi) _ _ _ _ hw'
    · exact h.owing y (List.mem_of_getElem? hy) _ _ _ _ hw
  · intro y hy t next x at' hw
    rcases set_cases hy with rfl | ⟨j, hj, hy⟩
    · exact ht _ _ _ _ hw
    · exact h.telling y (List.mem_of_getElem? hy) _ _ _ _ hw
  · intro y hy next hw
    rcases set_cases hy with rfl | ⟨j, hj, hy⟩
    · exact absurd hw (hl next)
    · exact h.leaving y (List.mem_of_getElem? hy) _ hw

/-- A step of a thread that has an effect. -/
private theorem FineSim.effect {s s' : Fine} {c : Conc} {m : Mem} {now : Time} {next : Pos} (h : FineSim s c) {i : Nat} {th th' : Thread}
    (hi : s.threads[i]? = some th) (hd : Does c now th.pos ((s.threads.take i).filterMap Thread.enqueueing).length next m)
    (hr : ∀ o r, th.pos ≠ .returned o r) (hph : ∀ n, th.phase ≠ .leaving n)
    (hth' : (th'.phase = .leaving next ∧ th'.pos = th.pos) ∨ (th'.phase = .out ∧ th'.pos = next))
    (hthreads : s'.threads = s.threads.set i th') (ha : m.allocated = s'.allocated) (hs : m.subs = s'.subs)
    (hp : m.paused = s'.paused) (hp' : s'.paused = s.paused)
    (hx : th'.holdsJobs s.paused = none ∨ th'.holdsJobs s.paused = th.holdsJobs s.paused)
    (hj : ((∀ j y, s.threads[j]? = some y → j ≠ i → y.owes = none) ∧ m.jobs = s'.jobs) ∨
      (th.owes = none ∧ m.jobs = c.mem.jobs ∧ s'.jobs = s.jobs)) :
    FineSim s' (c.run [⟨now, s.actOf i th.pos⟩]) ∧
      (s.threads.filterMap Thread.effect ++ (c.trace [⟨now, s.actOf i th.pos⟩]).filterMap TEv.opResult).Perm
        (s'.threads.filterMap Thread.effect) := by
  have hlt : i < s.threads.length := (List.getElem?_eq_some_iff.mp hi).1
  have ho' : th'.owes = none := by rcases hth' with h | h <;> simp [Thread.owes, h.1]
  have hm : (c.run [⟨now, s.actOf i th.pos⟩]).mem = m := hd.mem
  refine ⟨⟨by rw [hm]; exact ha, by rw [hm]; exact hs, by rw [hm]; exact hp, ?_, ?_, ?_, ?_, ?_, ?_⟩, ?_⟩
  · -- calls
    rw [hthreads]
    cases hpos : th.pos with
    | returned o r => exact absurd hpos (hr o r)
    | op o =>
      obtain ⟨r, hn, h1, h2⟩ := hd.op o hpos
      have : (c.run [⟨now, s.actOf i th.pos⟩]).calls = c.calls := h2
      rw [hpos] at this
      rw [this, filterMap_set_same hi, h.calls]
      have e1 : th.enqueueing = none := by
        unfold Thread.enqueueing
        cases hq : th.phase <;> simp only [hpos]
      have e2 : th'.enqueueing = none := by
        rcases hth' with h | h <;> simp only [Thread.enqueueing, h.1, h.2, hpos, hn]
      rw [e1, e2]
    | enqueue q =>
      obtain ⟨q', hn, h1, h2⟩ := hd.enq q hpos
      have e0 : (c.run [⟨now, s.actOf i th.pos⟩]).calls = _ := h2
      rw [hpos] at e0
      have e1 : th.enqueueing = some q := by
        unfold Thread.enqueueing
        cases hq : th.phase <;> simp only [hpos]
        exact absurd hq (hph _)
      have e2 : th'.enqueueing = some q' := by
        rcases hth' with h | h <;> simp only [Thread.enqueueing, h.1, h.2, hpos, hn]
      rw [e0, (filterMap_set_some hi e1 e2).2, h.calls]
  · -- jobs
    intro hn
    rw [hm]
    rcases hj with hj | hj
    · exact hj.2
    · rw [hj.2.1, hj.2.2]
      refine h.jobs fun y hy => ?_
      obtain ⟨j, hjy⟩ := List.getElem?_of_mem hy
      by_cases hij : j = i
      · subst hij
        rw [hi] at hjy
        cases hjy
        exact hj.1
      · exact hn y (List.mem_of_getElem? (i := j) (by rw [hthreads, List.getElem?_set_ne (fun h => hij h.symm)]; exact hjy))
  · intro y hy t next' x at' hw
    rw [hthreads] at hy
    rw [hm, hp']
    rcases set_cases hy with rfl | ⟨j, hji, hy⟩
    · exact absurd hw (owes_none ho')
    · rcases hj with hj | hj
      · exact absurd hw (owes_none (hj.1 j y hy hji))
      · rw [hj.2.1, hj.2.2]
        exact h.owing y (List.mem_of_getElem? hy) _ _ _ _ hw
  · intro y hy t next' x at' hw
    rw [hthreads] at hy
    rw [hp']
    rcases set_cases hy with rfl | ⟨j, hji, hy⟩
    · exact absurd (.inr hw) (owes_none ho')
    · exact h.telling y (List.mem_of_getElem? hy) _ _ _ _ hw
  · rw [hthreads, hp']
    exact excl_set h hi (hx.imp_right .inl)
  · intro y hy n hw
    rw [hthreads] at hy
    rcases set_cases hy with rfl | ⟨j, hji, hy⟩
    · rcases hth' with h | h
      · rw [h.1] at hw
        cases hw
        rw [h.2]
        cases hpos : th.pos with
        | returned o r => exact absurd hpos (hr o r)
        | op o => obtain ⟨r, hn, _⟩ := hd.op o hpos; exact .inl ⟨o, r, rfl, hn⟩
        | enqueue q => obtain ⟨q', hn, _⟩ := hd.enq q hpos; exact .inr ⟨q, q', rfl, hn⟩
      · rw [h.1] at hw; cases hw
    · exact h.leaving y (List.mem_of_getElem? hy) _ hw
  · rw [hthreads]
    have ht : c.trace [⟨now, s.actOf i th.pos⟩] = [⟨now, (c.step now (s.actOf i th.pos)).1⟩] := rfl
    rw [ht]
    cases hpos : th.pos with
    | returned o r => exact absurd hpos (hr o r)
    | op o =>
      obtain ⟨r, hn, h1, h2⟩ := hd.op o hpos
      rw [hpos] at h1
      have : (c.step now (s.actOf i (.op o))).1 = .op o r := h1
      simp only [this, List.filterMap_cons, TEv.opResult, List.filterMap_nil]
      have e1 : th.effect = none := by
        unfold Thread.effect
        cases hq : th.phase <;> simp only [hpos]
        exact absurd hq (hph _)
      have e2 : th'.effect = some (o, r) := by
        rcases hth' with h | h <;> simp only [Thread.effect, h.1, h.2, hn]
      exact filterMap_set_new hi e1 e2
    | enqueue q =>
      obtain ⟨q', hn, h1, h2⟩ := hd.enq q hpos
      rw [hpos] at h1
      have h1 : ∀ o r, (c.step now (s.actOf i (.enqueue q))).1 ≠ .op o r := h1
      have e0 : TEv.opResult ⟨now, (c.step now (s.actOf i (.enqueue q))).1⟩ = none := by
        unfold TEv.opResult
        split
        · rename_i o r he; exact absurd he (h1 o r)
        · rfl
      simp only [List.filterMap_cons, e0, List.filterMap_nil, List.append_nil]
      have e1 : th.effect = none := by
        unfold Thread.effect
        cases hq : th.phase <;> simp only [hpos]
        exact absurd hq (hph _)
      have e2 : th'.effect = none := by
        rcases hth' with h | h <;> simp only [Thread.effect, h.1, h.2, hn, hpos]
      rw [filterMap_set_same hi (e2.trans e1.symm)]

private theorem same_pos {th th' : Thread} (hl : ∀ n, th.phase ≠ .leaving n) (hl' : ∀ n, th'.phase ≠ .leaving n) (hp : th'.pos = th.pos) :
    th'.enqueueing = th.enqueueing ∧ th'.effect = th.effect := by
  have key : ∀ y : Thread, (∀ n, y.phase ≠ .leaving n) →
      y.enqueueing = (match y.pos with | .enqueue p => some p | _ => none) ∧
      y.effect = (match y.pos with | .returned o r => some (o, r) | _ => none) := by
    intro y hy
    constructor
    · unfold Thread.enqueueing
      cases hq : y.phase with
      | leaving n => exact absurd hq (hy n)
      | _ => cases y.pos <;> rfl
    · unfold Thread.effect
      cases hq : y.phase with
      | leaving n => exact absurd hq (hy n)
      | _ => cases y.pos <;> rfl
  rw [(key th hl).1, (key th hl).2, (key th' hl').1, (key th' hl').2, hp]
  exact ⟨rfl, rfl⟩

private theorem same_phase {th : Thread} {ph : LockPhase} (hl : ∀ n, th.phase ≠ .leaving n) (hl' : ∀ n, ph ≠ .leaving n) :
    (Thread.mk th.pos ph).enqueueing = th.enqueueing ∧ (Thread.mk th.pos ph).effect = th.effect :=
  same_pos (th' := Thread.mk th.pos ph) hl hl' rfl

private theorem FineSim.begin {s : Fine} {c c' : Conc} (h : FineSim s c) {th : Thread} (hph : th.phase = .out) (hm : c'.mem = c.mem)
    (hc : c'.calls = c.calls ++ (th.enqueueing).toList) : FineSim { s with threads := s.threads ++ [th] } c' := by
  have hno : th.owes = none := by simp [Thread.owes, hph]
  have hold : th.holdsJobs s.paused = none := by simp [Thread.holdsJobs, hph]
  refine ⟨by rw [hm]; exact h.allocated, by rw [hm]; exact h.subs, by rw [hm]; exact h.paused, ?_, ?_, ?_, ?_, ?_, ?_⟩
  · rw [hc, h.calls]
    simp only [List.filterMap_append]
    cases hq : th.enqueueing <;> simp [hq]
  · intro hn
    rw [hm]
    exact h.jobs fun y hy => hn y (List.mem_append_left _ hy)
  · intro y hy t next x at' hw
    rw [hm]
    rcases List.mem_append.mp hy with hy | hy
    · exact h.owing y hy _ _ _ _ hw
    · rw [List.mem_singleton.mp hy] at hw
      exact absurd hw (owes_none hno)
  · intro y hy t next x at' hw
    rcases List.mem_append.mp hy with hy | hy
    · exact h.telling y hy _ _ _ _ hw
    · rw [List.mem_singleton.mp hy, hph] at hw
      cases hw
  · intro i j y z hi hj hy hz
    have key : ∀ {k : Nat} {y : Thread}, (s.threads ++ [th])[k]? = some y → y.holdsJobs s.paused ≠ none → s.threads[k]? = some y := by
      intro k y hk hne
      rw [List.getElem?_append] at hk
      split at hk
      · exact hk
      · have := List.mem_singleton.mp (List.mem_of_getElem? hk)
        rw [this] at hne
        exact absurd hold hne
    exact h.excl i j y z (key hi (by simp [hy])) (key hj hz) hy hz
  · intro y hy next hw
    rcases List.mem_append.mp hy with hy | hy
    · exact h.leaving y hy _ hw
    · rw [List.mem_singleton.mp hy, hph] at hw
      cases hw

private theorem onJobs_returned {p : Pos} {b : Bool} {md : LockMode} (h : p.needs b = .jobs md) (o : Op) (r : Res) : p ≠ .returned o r := by
  rintro rfl; cases h

private theorem write_of_notify {p : Pos} {b : Bool} {md : LockMode} {now : Time} {js js' : List KeyedJob} {next : Pos} {n : String × Time}
    (hn : p.needs b = .jobs md) (hd : p.onJobs now js = (next, js', some n)) : md = .write := by
  cases p with
  | op o => cases o <;> first | (cases hn; rfl; done) | (simp [Pos.onJobs, Op.onJobs] at hd; done) | cases hn
  | returned o r => cases hn
  | enqueue q =>
    cases q with
    | start e =>
      simp only [Pos.onJobs] at hd
      split at hd <;> cases hd
    | allocated id e => cases hd
    | matched job => cases hn; rfl
    | pushed id e => cases hd
    | noMatch e => cases hn
    | done r => cases hn

private theorem calls_at {s : Fine} {c : Conc} (h : FineSim s c) {i : Nat} {th : Thread} (hi : s.threads[i]? = some th)
    (hl : ∀ n, th.phase ≠ .leaving n) : ∀ q, th.pos = .enqueue q →
      c.calls[((s.threads.take i).filterMap Thread.enqueueing).length]? = some q := by
  intro q hq
  have e : th.enqueueing = some q := by
    unfold Thread.enqueueing
    cases hp : th.phase <;> simp only [hq]
    exact absurd hp (hl _)
  rw [h.calls]
  exact (filterMap_set_some hi e e).1

private theorem enter_some {s : Fine} {p : Pos} {t : Option Time} {ph : LockPhase} (h : s.enter p t = some ph) :
    ph = .inside t ∧ ((∃ m, p.needs s.paused = .jobs m ∧ s.jobsFree m = true) ∨ (∃ m, p.needs s.paused = .subs m ∧ s.subsFree m = true)) := by
  unfold Fine.enter at h
  split at h
  · rename_i m hm
    split at h
    · rename_i hf; cases h; exact ⟨rfl, .inl ⟨m, hm, hf⟩⟩
    · cases h
  · rename_i m hm
    split at h
    · rename_i hf; cases h; exact ⟨rfl, .inr ⟨m, hm, hf⟩⟩
    · cases h
  · cases h

private theorem FineSim.enters {s : Fine} {c : Conc} (h : FineSim s c) {i : Nat} {th : Thread} {t : Option Time} {ph : LockPhase}
    (hi : s.threads[i]? = some th) (hph : th.phase = .out ∨ ∃ t, th.phase = .ticked t) (he : s.enter th.pos t = some ph) :
    FineSim (s.setThread i { th with phase := ph }) c ∧
      (s.threads.filterMap Thread.effect).Perm ((s.setThread i { th with phase := ph }).threads.filterMap Thread.effect) := by
  obtain ⟨rfl, hn⟩ := enter_some he
  have hl : ∀ n, th.phase ≠ .leaving n := by rcases hph with hp | ⟨t, hp⟩ <;> simp [hp]
  constructor
  · refine h.silent hi ?_ ?_ ?_ ?_ ?_ ?_
    · exact (same_phase hl (by intro n hw; cases hw)).1
    · intro t next x at' hw; rcases hw with hw | hw <;> cases hw
    · rcases hph with hp | ⟨t, hp⟩ <;> simp [Thread.owes, hp]
    · intro t next x at' hw; cases hw
    · rcases hn with ⟨m, hm, hf⟩ | ⟨m, hm, hf⟩
      · exact .inr (.inr ⟨m, by simp [Thread.holdsJobs, hm], hf⟩)
      · exact .inl (by simp [Thread.holdsJobs, hm])
    · intro next hw; cases hw
  · simp only [Fine.setThread]
    rw [filterMap_set_same hi (same_phase hl (by intro n hw; cases hw)).2]

private theorem FineSim.step {s : Fine} {c : Conc} (h : FineSim s c) (now : Time) (act : FineAct) :
    FineSim (s.step now act).2 (c.run (s.emit now act)) ∧
      (s.threads.filterMap Thread.effect ++ (c.trace (s.emit now act)).filterMap TEv.opResult).Perm
        ((s.step now act).2.threads.filterMap Thread.effect) := by
  cases act with
  | call o =>
    refine ⟨h.begin rfl rfl (by simp [Thread.enqueueing, Fine.emit, Conc.run]), ?_⟩
    simp [Fine.emit, Conc.trace, Fine.step, show Thread.effect { pos := .op o } = none from rfl]
  | enqueue e =>
    refine ⟨h.begin rfl rfl (by simp [Thread.enqueueing, Fine.emit, Conc.run, Conc.step]), ?_⟩
    simp [Fine.emit, Conc.trace, Fine.step, Conc.step, show Thread.effect { pos := .enqueue (.start e) } = none from rfl,
      show TEv.opResult { now := s.stamp now, ev := .began e } = none from rfl]
  | advance i =>
    have stay : ∀ bs : List TAct, bs = [] → FineSim s (c.run bs) ∧
        (s.threads.filterMap Thread.effect ++ (c.trace bs).filterMap TEv.opResult).Perm (s.threads.filterMap Thread.effect) := by
      rintro _ rfl; exact ⟨h, by simp [Conc.trace]⟩
    simp only [Fine.step, Fine.emit]
    cases hi : s.threads[i]? with
    | none => exact stay _ rfl
    | some th =>
      have hmem := List.mem_of_getElem? hi
      simp only [Fine.advance, Fine.emitAt]
      cases hph : th.phase with
      | out =>
        simp only []
        have hl : ∀ n, th.phase ≠ .leaving n := by intro n; rw [hph]; simp
        by_cases hov : th.pos.isOver = true
        · simp only [hov, if_true]; exact stay _ rfl
        · simp only [hov]
          by_cases hcf : th.pos.clockFirst = true
          · simp only [hcf, if_true]
            refine ⟨h.silent hi ?_ ?_ ?_ ?_ ?_ ?_, ?_⟩
            · exact (same_phase hl (by intro n hw; cases hw)).1
            · intro t next x at' hw; rcases hw with hw | hw <;> cases hw
            · simp [Thread.owes, hph]
            · intro t next x at' hw; cases hw
            · exact .inl rfl
            · intro next hw; cases hw
            · simp only [Bool.false_eq_true, if_false, Conc.trace, List.filterMap_nil, List.append_nil, Fine.setThread]
              rw [filterMap_set_same hi (same_phase hl (by intro n hw; cases hw)).2]
          · simp only [hcf]
            cases hn : th.pos.needs s.paused with
            | nothing =>
              have hd := does_nothing (c := c) (now := s.stamp now) (by rw [h.paused]; exact hn) (by simpa using hov) (calls_at h hi hl)
              have := h.effect (s' := ({ s with allocated := (th.pos.onNothing s.allocated).2 } : Fine).setThread i { pos := (th.pos.onNothing s.allocated).1 })
                (th' := { pos := (th.pos.onNothing s.allocated).1 }) hi hd
                (by rintro o r hr; rw [hr] at hov; exact hov rfl) hl (.inr ⟨rfl, by rw [h.allocated]⟩) rfl
                (by rw [h.allocated]; rfl) h.subs h.paused rfl (.inl rfl) (.inr ⟨by simp [Thread.owes, hph], rfl, rfl⟩)
              exact this
            | jobs m =>
              simp only [Bool.false_eq_true, if_false]
              cases he : s.enter th.pos none with
              | none => exact stay _ rfl
              | some ph =>
                obtain ⟨h1, h2⟩ := h.enters hi (.inl hph) he
                exact ⟨h1, by simpa [Conc.trace] using h2⟩
            | subs m =>
              simp only [Bool.false_eq_true, if_false]
              cases he : s.enter th.pos none with
              | none => exact stay _ rfl
              | some ph =>
                obtain ⟨h1, h2⟩ := h.enters hi (.inl hph) he
                exact ⟨h1, by simpa [Conc.trace] using h2⟩
      | ticked t =>
        simp only []
        cases he : s.enter th.pos (some t) with
        | none => exact stay _ rfl
        | some ph =>
          obtain ⟨h1, h2⟩ := h.enters hi (.inr ⟨t, hph⟩) he
          exact ⟨h1, by simpa [Conc.trace] using h2⟩
      | inside t =>
        simp only []
        have hl : ∀ n, th.phase ≠ .leaving n := by intro n; rw [hph]; simp
        cases hn : th.pos.needs s.paused with
        | nothing => exact stay _ rfl
        | subs m =>
          simp only []
          have hd : Does c (if th.pos.clockFirst then t.getD now else s.stamp now) th.pos ((s.threads.take i).filterMap Thread.enqueueing).length (th.pos.onSubs (t.getD now) s.subs).1
              { c.mem with subs := (th.pos.onSubs (t.getD now) s.subs).2 } := by
            have := does_subs (c := c) (now := if th.pos.clockFirst then t.getD now else s.stamp now) (by rw [h.paused]; exact hn)
              (calls_at h hi hl)
            have e : th.pos.onSubs (if th.pos.clockFirst then t.getD now else s.stamp now) s.subs = th.pos.onSubs (t.getD now) s.subs := by
              cases hp : th.pos with
              | op o => cases o <;> rfl
              | returned o r => rfl
              | enqueue q => cases q <;> rfl
            rw [h.subs, e] at this
            exact this
          exact h.effect (s' := ({ s with subs := (th.pos.onSubs (t.getD now) s.subs).2 } : Fine).setThread i
              { th with phase := .leaving (th.pos.onSubs (t.getD now) s.subs).1 })
            (th' := { th with phase := .leaving (th.pos.onSubs (t.getD now) s.subs).1 }) hi hd
            (by rintro o r hr; rw [hr] at hn; cases hn) hl (.inl ⟨rfl, rfl⟩) rfl h.allocated rfl h.paused rfl
            (.inl (by simp [Thread.holdsJobs, hn])) (.inr ⟨by simp [Thread.owes, hph], rfl, rfl⟩)
        | jobs m =>
          have hold : th.holdsJobs s.paused ≠ none := by simp [Thread.holdsJobs, hph, hn]
          have hj : c.mem.jobs = s.jobs := by
            refine h.jobs fun y hy => ?_
            obtain ⟨j, hj⟩ := List.getElem?_of_mem hy
            by_cases hij : j = i
            · subst hij; rw [hi] at hj; cases hj; simp [Thread.owes, hph]
            · exact h.others hi hold hj hij
          obtain ⟨⟨next, jobs, n⟩, hd⟩ : ∃ r, th.pos.onJobs (t.getD now) s.jobs = r := ⟨_, rfl⟩
          simp only [hd]
          cases n with
          | none =>
            simp only []
            have hdo := does_jobs (c := c) hn (calls_at h hi hl) (show th.pos.onJobs (t.getD now) c.mem.jobs = (next, jobs, none) by rw [hj]; exact hd)
            exact h.effect (s' := ({ s with jobs := jobs } : Fine).setThread i { th with phase := .leaving next })
              (th' := { th with phase := .leaving next }) hi hdo
              (onJobs_returned hn) hl (.inl ⟨rfl, rfl⟩) rfl h.allocated h.subs h.paused rfl
              (.inr (by simp [Thread.holdsJobs, hph, hn])) (.inl ⟨fun j y hy hne => h.others hi hold hy hne, rfl⟩)
          | some n =>
            obtain ⟨x, at'⟩ := n
            simp only []
            have hlt : i < s.threads.length := (List.getElem?_eq_some_iff.mp hi).1
            refine ⟨⟨h.allocated, h.subs, h.paused, ?_, ?_, ?_, ?_, ?_, ?_⟩, ?_⟩
            · simp only [Fine.setThread]
              rw [filterMap_set_same hi (same_phase hl (by intro n hw; cases hw)).1]
              exact h.calls
            · intro hw
              have := hw { th with phase := .told (t.getD now) next x at' } (List.mem_of_getElem? (i := i) (by simp [Fine.setThread, hlt]))
              simp [Thread.owes] at this
            · intro y hy t' next' x' at'' hw
              rcases set_cases hy with rfl | ⟨j, hji, hy⟩
              · rcases hw with hw | hw <;> cases hw
                refine ⟨hn.trans (congrArg Needs.jobs (write_of_notify hn hd)), ?_⟩
                show Pos.onJobs _ c.mem.jobs th.pos = _
                rw [hj]
                exact hd
              · exact absurd hw (owes_none (h.others hi hold hy hji))
            · intro y hy t' next' x' at'' hw
              rcases set_cases hy with rfl | ⟨j, hji, hy⟩
              · cases hw
              · exact h.telling y (List.mem_of_getElem? hy) _ _ _ _ hw
            · exact excl_set h hi (.inr (.inl (by simp [Thread.holdsJobs, hph, hn])))
            · intro y hy n hw
              rcases set_cases hy with rfl | ⟨j, hji, hy⟩
              · cases hw
              · exact h.leaving y (List.mem_of_getElem? hy) _ hw
            · simp only [Conc.trace, List.filterMap_nil, List.append_nil, Fine.setThread]
              rw [filterMap_set_same hi (same_phase hl (by intro n hw; cases hw)).2]
      | told t next x at' =>
        have hl : ∀ n, th.phase ≠ .leaving n := by intro n; rw [hph]; simp
        obtain ⟨hn, hd⟩ := h.owing th hmem _ _ _ _ (.inl hph)
        have hold : th.holdsJobs s.paused ≠ none := by simp [Thread.holdsJobs, hph, hn]
        by_cases hp : s.paused = true
        · simp only [hp, if_true]
          have hdo := does_jobs (c := c) hn (calls_at h hi hl) hd
          exact h.effect (s' := s.setThread i { th with phase := .leaving next })
            (th' := { th with phase := .leaving next }) hi hdo
            (onJobs_returned hn) hl (.inl ⟨rfl, rfl⟩) rfl h.allocated
            (by simp only [notified, h.paused, hp, if_true]; exact h.subs) h.paused rfl
            (.inr (by simp [Thread.holdsJobs, hph, hn])) (.inl ⟨fun j y hy hne => h.others hi hold hy hne, rfl⟩)
        · simp only [hp, Bool.false_eq_true, if_false]
          by_cases hf : s.subsFree .read = true
          · simp only [hf, if_true]
            refine ⟨h.silent hi ?_ ?_ ?_ ?_ ?_ ?_, ?_⟩
            · exact (same_phase hl (by intro n hw; cases hw)).1
            · intro t next x at' hw
              rcases hw with hw | hw <;> cases hw
              exact ⟨.inl hph, rfl⟩
            · simp [Thread.owes]
            · intro t next x at' hw; simpa using hp
            · exact .inr (.inl (by simp [Thread.holdsJobs, hph, hn]))
            · intro next hw; cases hw
            · simp only [Conc.trace, List.filterMap_nil, List.append_nil, Fine.setThread]
              rw [filterMap_set_same hi (same_phase hl (by intro n hw; cases hw)).2]
          · simp only [hf]
            exact stay _ rfl
      | telling t next x at' =>
        have hl : ∀ n, th.phase ≠ .leaving n := by intro n; rw [hph]; simp
        obtain ⟨hn, hd⟩ := h.owing th hmem _ _ _ _ (.inr hph)
        have hold : th.holdsJobs s.paused ≠ none := by simp [Thread.holdsJobs, hph, hn]
        have hp := h.telling th hmem _ _ _ _ hph
        have hdo := does_jobs (c := c) hn (calls_at h hi hl) hd
        exact h.effect (s' := ({ s with subs := tell x at' s.subs } : Fine).setThread i { th with phase := .leaving next })
          (th' := { th with phase := .leaving next }) hi hdo
          (onJobs_returned hn) hl (.inl ⟨rfl, rfl⟩) rfl h.allocated
          (by simp only [notified, h.paused, hp, Bool.false_eq_true, if_false, h.subs]; rfl) h.paused rfl
          (.inr (by simp [Thread.holdsJobs, hph, hn])) (.inl ⟨fun j y hy hne => h.others hi hold hy hne, rfl⟩)
      | leaving next =>
        simp only []
        have hsame : (Thread.mk next .out).enqueueing = th.enqueueing ∧ (Thread.mk next .out).effect = th.effect := by
          rcases h.leaving th hmem _ hph with ⟨o, r, h1, rfl⟩ | ⟨p, q, h1, rfl⟩ <;>
            simp only [Thread.enqueueing, Thread.effect, hph, h1, and_self]
        refine ⟨h.silent hi hsame.1 ?_ ?_ ?_ (.inl rfl) ?_, ?_⟩
        · intro t next x at' hw; rcases hw with hw | hw <;> cases hw
        · simp [Thread.owes, hph]
        · intro t next x at' hw; cases hw
        · intro next hw; cases hw
        · simp only [Conc.trace, List.filterMap_nil, List.append_nil, Fine.setThread]
          rw [filterMap_set_same hi hsame.2]

/-! ## Times -/

private theorem notify_not_first {p : Pos} {b : Bool} {md : LockMode} {now : Time} {js js' : List KeyedJob} {next : Pos} {n : String × Time}
    (hn : p.needs b = .jobs md) (hd : p.onJobs now js = (next, js', some n)) : p.clockFirst = false := by
  cases p with
  | op o =>
    cases o with
    | prune spec => simp [Pos.onJobs, Op.onJobs] at hd
    | notifyAll => cases hn
    | _ => rfl
  | returned o r => rfl
  | enqueue q => rfl

private theorem act_first {p : Pos} {t : Time} {k : Nat} (hr : ∀ o r, p ≠ .returned o r) :
    TAct.clockFirst ⟨t, p.act k⟩ = p.clockFirst := by
  cases p with
  | op o => cases o <;> rfl
  | returned o r => exact absurd rfl (hr o r)
  | enqueue q => rfl

/-- what thread `i` is after it has gone on -/
private theorem advance_thread {s s' : Fine} {now : Time} {i : Nat} {th : Thread} (h : s.advance now i th = some s') :
    (s'.threads = s.threads ∧ s.emitAt now i th = []) ∨ ∃ th', s'.threads = s.threads.set i th' ∧
      (∀ t, th'.phase = .ticked t → t = now ∧ th'.pos.clockFirst = true) ∧
      (∀ t, th'.phase = .inside (some t) → th.phase = .ticked t ∧ th'.pos = th.pos) ∧
      (∀ t, th'.owes = some t → s.emitAt now i th = [] ∧
        (th.owes = some t ∨ ∃ t₀, th.phase = .inside t₀ ∧ t = t₀.getD now ∧ th.pos.clockFirst = false)) := by
  unfold Fine.advance at h
  cases hph : th.phase with
  | out =>
    simp only [hph] at h
    split at h
    · rename_i hov; cases h; exact .inl ⟨rfl, by simp [Fine.emitAt, hph, hov]⟩
    · split at h
      · rename_i hcf
        cases h
        refine .inr ⟨_, rfl, ?_, ?_, ?_⟩
        · intro t ht; cases ht; exact ⟨rfl, hcf⟩
        · intro t ht; cases ht
        · intro t ht; cases ht
      · split at h
        · cases h
          refine .inr ⟨_, rfl, ?_, ?_, ?_⟩ <;> (intro t ht; cases ht)
        · obtain ⟨ph, he, rfl⟩ := Option.map_eq_some_iff.mp h
          obtain ⟨rfl, -⟩ := enter_some he
          refine .inr ⟨_, rfl, ?_, ?_, ?_⟩ <;> (intro t ht; cases ht)
  | ticked t =>
    simp only [hph] at h
    obtain ⟨ph, he, rfl⟩ := Option.map_eq_some_iff.mp h
    obtain ⟨rfl, -⟩ := enter_some he
    refine .inr ⟨_, rfl, ?_, ?_, ?_⟩ <;> (intro t ht; cases ht)
    exact ⟨rfl, rfl⟩
  | inside t =>
    simp only [hph] at h
    split at h
    · rename_i hn
      split at h
      · cases h
        refine .inr ⟨_, rfl, ?_, ?_, ?_⟩ <;> (intro t ht; cases ht)
      · rename_i hd
        cases h
        refine .inr ⟨_, rfl, ?_, ?_, ?_⟩
        · intro t ht; cases ht
        · intro t ht; cases ht
        · intro t' ht
          cases ht
          exact ⟨by simp [Fine.emitAt, hph, hn, hd], .inr ⟨_, rfl, rfl, notify_not_first hn hd⟩⟩
    · cases h
      refine .inr ⟨_, rfl, ?_, ?_, ?_⟩ <;> (intro t ht; cases ht)
    · rename_i hn; cases h; exact .inl ⟨rfl, by simp [Fine.emitAt, hph, hn]⟩
  | told t next x at' =>
    simp only [hph] at h
    split at h
    · cases h
      refine .inr ⟨_, rfl, ?_, ?_, ?_⟩ <;> (intro t ht; cases ht)
    · rename_i hp
      split at h
      · cases h
        refine .inr ⟨_, rfl, ?_, ?_, ?_⟩
        · intro t ht; cases ht
        · intro t ht; cases ht
        · intro t' ht
          cases ht
          exact ⟨by simp [Fine.emitAt, hph, hp], .inl (by simp [Thread.owes, hph])⟩
      · cases h
  | telling t next x at' =>
    simp only [hph] at h
    cases h
    refine .inr ⟨_, rfl, ?_, ?_, ?_⟩ <;> (intro t ht; cases ht)
  | leaving next =>
    simp only [hph] at h
    cases h
    refine .inr ⟨_, rfl, ?_, ?_, ?_⟩ <;> (intro t ht; cases ht)

private theorem advance_waits {s : Fine} {now : Time} {i : Nat} {th : Thread} (h : s.advance now i th = none) : s.emitAt now i th = [] := by
  unfold Fine.advance at h
  unfold Fine.emitAt
  cases hph : th.phase with
  | out =>
    simp only [hph] at h
    split at h
    · cases h
    · split at h
      · cases h
      · split at h
        · cases h
        · rename_i h1 h2 x hn
          simp only [h1, h2, Bool.false_eq_true, if_false]
  | ticked t => rfl
  | inside t =>
    simp only [hph] at h
    split at h
    · split at h <;> cases h
    · cases h
    · cases h
  | told t next x at' =>
    simp only [hph] at h
    split at h
    · cases h
    · rename_i hp; simp [hp]
  | telling t next x at' => simp only [hph] at h; cases h
  | leaving next => rfl

/-- the time of the action of thread `i` -/
private theorem emitAt_times {s : Fine} {now : Time} {i : Nat} {th : Thread} (hi : s.threads[i]? = some th) :
    s.emitAt now i th = [] ∨ ∃ b, s.emitAt now i th = [b] ∧
      (th.owes = some b.now ∨ (b.now = now ∧ th.owes = none ∧ th.holdsJobs s.paused ≠ none) ∨ (b.now = s.stamp now ∧ th.owes = none) ∨
        ((∃ t, th.phase = .inside (some t) ∧ b.now = t) ∧ (th.pos.clockFirst = true → b.clockFirst = true)) ∨
        (b.now = now ∧ b.clockFirst = true)) := by
  have hmem := List.mem_of_getElem? hi
  unfold Fine.emitAt
  cases hph : th.phase with
  | out =>
    simp only []
    split
    · exact .inl rfl
    · split
      · exact .inl rfl
      · split
        · exact .inr ⟨_, rfl, .inr (.inr (.inl ⟨rfl, by simp [Thread.owes, hph]⟩))⟩
        · exact .inl rfl
  | ticked t => exact .inl rfl
  | inside t =>
    simp only []
    split
    · rename_i m hn
      split
      · cases t with
        | none => exact .inr ⟨_, rfl, .inr (.inl ⟨rfl, by simp [Thread.owes, hph], by simp [Thread.holdsJobs, hph, hn]⟩)⟩
        | some t =>
          refine .inr ⟨_, rfl, .inr (.inr (.inr (.inl ⟨⟨t, rfl, rfl⟩, fun h => ?_⟩)))⟩
          rw [Fine.actOf, act_first (onJobs_returned hn)]
          exact h
      · exact .inl rfl
    · rename_i m hn
      by_cases hc : th.pos.clockFirst = true
      · simp only [hc, if_true]
        have hr : ∀ o r, th.pos ≠ .returned o r := by rintro o r hr; rw [hr] at hn; cases hn
        cases t with
        | none => exact .inr ⟨_, rfl, .inr (.inr (.inr (.inr ⟨rfl, by rw [Fine.actOf, act_first hr]; exact hc⟩)))⟩
        | some t => exact .inr ⟨_, rfl, .inr (.inr (.inr (.inl ⟨⟨t, rfl, rfl⟩, fun _ => by rw [Fine.actOf, act_first hr]; exact hc⟩)))⟩
      · simp only [hc]
        exact .inr ⟨_, rfl, .inr (.inr (.inl ⟨rfl, by simp [Thread.owes, hph]⟩))⟩
    · exact .inl rfl
  | told t next x at' =>
    simp only []
    split
    · exact .inr ⟨_, rfl, .inl (by simp [Thread.owes, hph])⟩
    · exact .inl rfl
  | telling t next x at' => exact .inr ⟨_, rfl, .inl (by simp [Thread.owes, hph])⟩
  | leaving next => exact .inl rfl

private theorem stamp_cases (s : Fine) (now : Time) :
    (∃ th ∈ s.threads, th.owes = some (s.stamp now)) ∨ (s.stamp now = now ∧ ∀ th ∈ s.threads, th.owes = none) := by
  unfold Fine.stamp
  cases hl : s.threads.filterMap Thread.owes with
  | nil =>
    right
    refine ⟨rfl, fun th hth => ?_⟩
    cases ho : th.owes with
    | none => rfl
    | some t =>
      have : t ∈ s.threads.filterMap Thread.owes := List.mem_filterMap.mpr ⟨th, hth, ho⟩
      rw [hl] at this
      cases this
  | cons t l =>
    left
    have : t ∈ s.threads.filterMap Thread.owes := by rw [hl]; exact List.mem_cons_self
    obtain ⟨th, hth, ho⟩ := List.mem_filterMap.mp this
    exact ⟨th, hth, ho⟩

/-- at most one thread owes a notification -/
private theorem owes_unique {s : Fine} {c : Conc} (hs : FineSim s c) {y z : Thread} {t t' : Time} (hy : y ∈ s.threads) (hz : z ∈ s.threads)
    (h1 : y.owes = some t) (h2 : z.owes = some t') : t = t' := by
  obtain ⟨i, hi⟩ := List.getElem?_of_mem hy
  obtain ⟨j, hj⟩ := List.getElem?_of_mem hz
  obtain ⟨_, _, _, hw1⟩ := owes_some h1
  obtain ⟨_, _, _, hw2⟩ := owes_some h2
  have := hs.excl i j y z hi hj (owing_holds hw1 (hs.owing y hy _ _ _ _ hw1).1)
    (by rw [owing_holds hw2 (hs.owing z hz _ _ _ _ hw2).1]; simp)
  subst this
  rw [hi] at hj
  cases hj
  rw [h1] at h2
  cases h2
  rfl

private structure FineTimes (s : Fine) (as : List TFineAct) (bs : List TAct) : Prop where
  ticked : ∀ th ∈ s.threads, ∀ t, th.phase = .ticked t → (∃ a ∈ as, a.now = t) ∧ th.pos.clockFirst = true
  inside : ∀ th ∈ s.threads, ∀ t, th.phase = .inside (some t) → (∃ a ∈ as, a.now = t) ∧ th.pos.clockFirst = true
  owes : ∀ th ∈ s.threads, ∀ t, th.owes = some t → ∃ a ∈ as, a.now = t
  sent : ∀ b ∈ bs, ∃ a ∈ as, a.now = b.now
  before : (as.map (·.now)).Pairwise (· ≤ ·) → ∀ th ∈ s.threads, ∀ t, th.owes = some t → ∀ b ∈ bs, b.clockFirst = false → b.now ≤ t
  sorted : (as.map (·.now)).Pairwise (· ≤ ·) → ((bs.filter fun b => !b.clockFirst).map (·.now)).Pairwise (· ≤ ·)

private theorem sorted_snoc {l : List TAct} {b : TAct} (h : ((l.filter fun b => !b.clockFirst).map (·.now)).Pairwise (· ≤ ·))
    (hb : b.clockFirst = false → ∀ x ∈ l, x.clockFirst = false → x.now ≤ b.now) :
    (((l ++ [b]).filter fun b => !b.clockFirst).map (·.now)).Pairwise (· ≤ ·) := by
  cases hc : b.clockFirst with
  | true => simpa [List.filter_append, hc] using h
  | false =>
    simp only [List.filter_append, List.filter_cons, hc, List.filter_nil, List.map_append, Bool.not_false, if_true, List.map_cons, List.map_nil]
    rw [List.pairwise_append]
    refine ⟨h, by simp, ?_⟩
    intro x hx y hy
    rw [List.mem_singleton.mp hy]
    obtain ⟨z, hz, rfl⟩ := List.mem_map.mp hx
    simp only [List.mem_filter] at hz
    exact hb hc z hz.1 (by simpa using hz.2)

private theorem FineTimes.step {s : Fine} {c : Conc} {as : List TFineAct} {bs : List TAct} (h : FineTimes s as bs) (hs : FineSim s c) (a : TFineAct) :
    FineTimes (s.step a.now a.act).2 (as ++ [a]) (bs ++ s.emit a.now a.act) := by
  have up : ∀ {t : Time}, (∃ x ∈ as, x.now = t) → ∃ x ∈ as ++ [a], x.now = t := by
    rintro t ⟨x, hx, ht⟩; exact ⟨x, List.mem_append_left _ hx, ht⟩
  have last : ∃ x ∈ as ++ [a], x.now = a.now := ⟨a, by simp, rfl⟩
  have mono : ((as ++ [a]).map (·.now)).Pairwise (· ≤ ·) → (as.map (·.now)).Pairwise (· ≤ ·) ∧ ∀ x ∈ as, x.now ≤ a.now := by
    intro hm
    rw [List.map_append, List.pairwise_append] at hm
    exact ⟨hm.1, fun x hx => hm.2.2 _ (List.mem_map.mpr ⟨x, hx, rfl⟩) _ (by simp)⟩
  have sentle : ((as ++ [a]).map (·.now)).Pairwise (· ≤ ·) → ∀ b ∈ bs, b.now ≤ a.now := by
    intro hm b hb
    obtain ⟨x, hx, ht⟩ := h.sent b hb
    rw [← ht]
    exact (mono hm).2 x hx
  have owesle : ((as ++ [a]).map (·.now)).Pairwise (· ≤ ·) → ∀ th ∈ s.threads, ∀ t, th.owes = some t → t ≤ a.now := by
    intro hm th hth t ht
    obtain ⟨x, hx, rfl⟩ := h.owes th hth t ht
    exact (mono hm).2 x hx
  have stamp : (∃ x ∈ as ++ [a], x.now = s.stamp a.now) ∧
      (((as ++ [a]).map (·.now)).Pairwise (· ≤ ·) → ∀ b ∈ bs, b.clockFirst = false → b.now ≤ s.stamp a.now) ∧
      (∀ th ∈ s.threads, ∀ t, th.owes = some t → s.stamp a.now = t) := by
    rcases stamp_cases s a.now with ⟨th, hth, ho⟩ | ⟨he, hno⟩
    · exact ⟨up (h.owes th hth _ ho), fun hm => h.before (mono hm).1 th hth _ ho, fun y hy t ht => owes_unique hs hth hy ho ht⟩
    · rw [he]
      exact ⟨last, fun hm b hb _ => sentle hm b hb, fun y hy t ht => by rw [hno y hy] at ht; cases ht⟩
  have stay : FineTimes s (as ++ [a]) bs := by
    refine ⟨?_, ?_, ?_, fun b hb => up (h.sent b hb), fun hm => h.before (mono hm).1, fun hm => h.sorted (mono hm).1⟩
    · intro th hth t ht; obtain ⟨h1, h2⟩ := h.ticked th hth t ht; exact ⟨up h1, h2⟩
    · intro th hth t ht; obtain ⟨h1, h2⟩ := h.inside th hth t ht; exact ⟨up h1, h2⟩
    · intro th hth t ht; exact up (h.owes th hth t ht)
  obtain ⟨now, act⟩ := a
  cases act with
  | call o =>
    simp only [Fine.emit, List.append_nil, Fine.step]
    have new : ∀ {th : Thread}, th ∈ s.threads ++ [{ pos := .op o }] → th ∈ s.threads ∨ th = { pos := .op o } := by
      intro th hth; simpa using hth
    refine ⟨?_, ?_, ?_, stay.sent, ?_, stay.sorted⟩
    · intro th hth t ht
      rcases new hth with hth | rfl
      · exact stay.ticked th hth t ht
      · cases ht
    · intro th hth t ht
      rcases new hth with hth | rfl
      · exact stay.inside th hth t ht
      · cases ht
    · intro th hth t ht
      rcases new hth with hth | rfl
      · exact stay.owes th hth t ht
      · cases ht
    · intro hm th hth t ht
      rcases new hth with hth | rfl
      · exact stay.before hm th hth t ht
      · cases ht
  | enqueue e =>
    simp only [Fine.emit, Fine.step]
    have new : ∀ {th : Thread}, th ∈ s.threads ++ [{ pos := .enqueue (.start e) }] → th ∈ s.threads ∨ th = { pos := .enqueue (.start e) } := by
      intro th hth; simpa using hth
    have newb : ∀ {b : TAct}, b ∈ bs ++ [⟨s.stamp now, .start e⟩] → b ∈ bs ∨ b = ⟨s.stamp now, .start e⟩ := by
      intro b hb; simpa using hb
    refine ⟨?_, ?_, ?_, ?_, ?_, ?_⟩
    · intro th hth t ht
      rcases new hth with hth | rfl
      · exact stay.ticked th hth t ht
      · cases ht
    · intro th hth t ht
      rcases new hth with hth | rfl
      · exact stay.inside th hth t ht
      · cases ht
    · intro th hth t ht
      rcases new hth with hth | rfl
      · exact stay.owes th hth t ht
      · cases ht
    · intro b hb
      rcases newb hb with hb | rfl
      · exact stay.sent b hb
      · exact stamp.1
    · intro hm th hth t ht b hb hc
      rcases new hth with hth | rfl
      · rcases newb hb with hb | rfl
        · exact stay.before hm th hth t ht b hb hc
        · exact Int.le_of_eq (stamp.2.2 th hth t ht)
      · cases ht
    · intro hm
      exact sorted_snoc (stay.sorted hm) fun _ => stamp.2.1 hm
  | advance i =>
    simp only [Fine.step, Fine.emit]
    cases hi : s.threads[i]? with
    | none => simpa using stay
    | some th =>
      have hmem := List.mem_of_getElem? hi
      simp only []
      cases ha : s.advance now i th with
      | none =>
        rw [advance_waits ha]
        simpa using stay
      | some s' =>
        simp only []
        rcases advance_thread ha with ⟨ht, he⟩ | ⟨th', hth', t1, t2, t3⟩
        · rw [he, List.append_nil]
          have ht' : ∀ {y}, y ∈ s'.threads → y ∈ s.threads := by intro y hy; rw [← ht]; exact hy
          exact ⟨fun y hy => stay.ticked y (ht' hy), fun y hy => stay.inside y (ht' hy), fun y hy => stay.owes y (ht' hy), stay.sent,
            fun hm y hy => stay.before hm y (ht' hy), stay.sorted⟩
        · have new : ∀ {y : Thread}, y ∈ s'.threads → y = th' ∨ ∃ j, j ≠ i ∧ s.threads[j]? = some y := by
            intro y hy; rw [hth'] at hy; exact set_cases hy
          -- the new action
          have newb : ∀ b ∈ s.emitAt now i th, (∃ x ∈ as ++ [⟨now, .advance i⟩], x.now = b.now) ∧
              (b.clockFirst = false → ((as ++ [(⟨now, .advance i⟩ : TFineAct)]).map (·.now)).Pairwise (· ≤ ·) →
                (∀ x ∈ bs, x.clockFirst = false → x.now ≤ b.now) ∧
                (∀ j y t, j ≠ i → s.threads[j]? = some y → y.owes = some t → b.now ≤ t)) := by
            intro b hb
            rcases emitAt_times (now := now) hi with he | ⟨b', he, hc⟩
            · rw [he] at hb; cases hb
            · rw [he] at hb
              cases List.mem_singleton.mp hb
              rcases hc with hc | ⟨hc, ho, hh⟩ | ⟨hc, ho⟩ | ⟨⟨t, hp, hc⟩, hf⟩ | ⟨hc, hf⟩
              · refine ⟨stay.owes th hmem _ hc, fun _ hm => ⟨stay.before hm th hmem _ hc, ?_⟩⟩
                intro j y t hj hy hw
                exact Int.le_of_eq (owes_unique hs hmem (List.mem_of_getElem? hy) hc hw)
              · refine ⟨by rw [hc]; exact last, fun _ hm => ⟨fun x hx _ => by rw [hc]; exact sentle hm x hx, ?_⟩⟩
                intro j y t hj hy hw
                rw [hs.others hi hh hy hj] at hw
                cases hw
              · refine ⟨by rw [hc]; exact stamp.1, fun _ hm => ⟨by rw [hc]; exact stamp.2.1 hm, ?_⟩⟩
                intro j y t hj hy hw
                rw [hc]
                exact Int.le_of_eq (stamp.2.2 y (List.mem_of_getElem? hy) t hw)
              · have hin := stay.inside th hmem t hp
                exact ⟨by rw [hc]; exact hin.1, fun hf' => by rw [hf hin.2] at hf'; cases hf'⟩
              · exact ⟨by rw [hc]; exact last, fun hf' => by rw [hf] at hf'; cases hf'⟩
          refine ⟨?_, ?_, ?_, ?_, ?_, ?_⟩
          · intro y hy t ht
            rcases new hy with rfl | ⟨j, hj, hy⟩
            · obtain ⟨rfl, h2⟩ := t1 t ht
              exact ⟨last, h2⟩
            · exact stay.ticked y (List.mem_of_getElem? hy) t ht
          · intro y hy t ht
            rcases new hy with rfl | ⟨j, hj, hy⟩
            · obtain ⟨h1, h2⟩ := t2 t ht
              rw [h2]
              exact stay.ticked th hmem t h1
            · exact stay.inside y (List.mem_of_getElem? hy) t ht
          · intro y hy t ht
            rcases new hy with rfl | ⟨j, hj, hy⟩
            · rcases (t3 t ht).2 with h1 | ⟨t₀, h1, rfl, h3⟩
              · exact stay.owes th hmem t h1
              · cases t₀ with
                | none => exact last
                | some t₀ => exact (stay.inside th hmem t₀ h1).1
            · exact stay.owes y (List.mem_of_getElem? hy) t ht
          · intro b hb
            rcases List.mem_append.mp hb with hb | hb
            · exact stay.sent b hb
            · exact (newb b hb).1
          · intro hm y hy t ht b hb hc
            rcases new hy with rfl | ⟨j, hj, hy⟩
            · obtain ⟨he, h1⟩ := t3 t ht
              rw [he, List.append_nil] at hb
              rcases h1 with h1 | ⟨t₀, h1, rfl, h3⟩
              · exact stay.before hm th hmem t h1 b hb hc
              · cases t₀ with
                | none => exact sentle hm b hb
                | some t₀ => rw [(stay.inside th hmem t₀ h1).2] at h3; cases h3
            · rcases List.mem_append.mp hb with hb | hb
              · exact stay.before hm y (List.mem_of_getElem? hy) t ht b hb hc
              · exact ((newb b hb).2 hc hm).2 j y t hj hy ht
          · intro hm
            rcases emitAt_times (now := now) hi with he | ⟨b', he, -⟩
            · rw [he, List.append_nil]
              exact stay.sorted hm
            · have hb : b' ∈ s.emitAt now i th := by rw [he]; exact List.mem_singleton.mpr rfl
              rw [he]
              exact sorted_snoc (stay.sorted hm) fun hc => ((newb b' hb).2 hc hm).1

/-! ## C114 -/

private theorem conc_run_append (c : Conc) (as bs : List TAct) : c.run (as ++ bs) = (c.run as).run bs := by
  induction as generalizing c with
  | nil => rfl
  | cons a as ih => exact ih _

private theorem conc_trace_append (c : Conc) (as bs : List TAct) : c.trace (as ++ bs) = c.trace as ++ (c.run as).trace bs := by
  induction as generalizing c with
  | nil => rfl
  | cons a as ih => simp only [List.cons_append, Conc.trace, Conc.run, ih]

private theorem fine_run_append (s : Fine) (as bs : List TFineAct) : s.run (as ++ bs) = (s.run as).run bs := by
  induction as generalizing s with
  | nil => rfl
  | cons a as ih => exact ih _

private theorem atomic_append (s : Fine) (as bs : List TFineAct) : s.atomic (as ++ bs) = s.atomic as ++ (s.run as).atomic bs := by
  induction as generalizing s with
  | nil => rfl
  | cons a as ih => simp only [List.cons_append, Fine.atomic, Fine.run, ih, List.append_assoc]

private theorem fine_reach (paused : Bool) (as : List TFineAct) :
    FineSim (Fine.run { paused := paused } as) (Conc.run { mem := { paused := paused } } (Fine.atomic { paused := paused } as)) ∧
    FineTimes (Fine.run { paused := paused } as) as (Fine.atomic { paused := paused } as) ∧
    ((Conc.trace { mem := { paused := paused } } (Fine.atomic { paused := paused } as)).filterMap TEv.opResult).Perm
      ((Fine.run { paused := paused } as).threads.filterMap Thread.effect) := by
  suffices h : ∀ (bs : List TFineAct) (as : List TFineAct), bs = as.reverse →
      FineSim (Fine.run { paused := paused } bs) (Conc.run { mem := { paused := paused } } (Fine.atomic { paused := paused } bs)) ∧
      FineTimes (Fine.run { paused := paused } bs) bs (Fine.atomic { paused := paused } bs) ∧
      ((Conc.trace { mem := { paused := paused } } (Fine.atomic { paused := paused } bs)).filterMap TEv.opResult).Perm
        ((Fine.run { paused := paused } bs).threads.filterMap Thread.effect) from h as as.reverse (by simp)
  intro bs as
  induction as generalizing bs with
  | nil =>
    rintro rfl
    refine ⟨⟨rfl, rfl, rfl, rfl, fun _ => rfl, ?_, ?_, ?_, ?_⟩, ⟨?_, ?_, ?_, ?_, ?_, ?_⟩, ?_⟩ <;>
      simp [Fine.run, Fine.atomic, Conc.trace]
  | cons a as ih =>
    intro hbs
    rw [List.reverse_cons] at hbs
    obtain ⟨h1, h2, h3⟩ := ih _ rfl
    rw [hbs, fine_run_append, atomic_append, conc_run_append, conc_trace_append]
    have e : Fine.atomic (Fine.run { paused := paused } as.reverse) [a] = (Fine.run { paused := paused } as.reverse).emit a.now a.act := by
      simp [Fine.atomic]
    rw [e]
    refine ⟨(h1.step a.now a.act).1, h2.step h1 a, ?_⟩
    rw [List.filterMap_append]
    exact (h3.append_right _).trans (h1.step a.now a.act).2

/-- **C114.** Every schedule of threads that take and release the locks of the in-memory backend
is equivalent to a schedule of atomic steps, which grows along with it. After both the id
counter, the subscribers with all that has been sent to them, and the positions of the `enqueue`
calls are the same; so are the jobs, unless a thread is between changing them and sending
the notification. The calls that have returned, with their results, are those of the atomic
schedule. The atomic steps are at times of the schedule; if the clock does not run backwards
then it does not in the atomic schedule either, apart from the calls that read it before
they have the lock. -/
theorem C114_atomic (paused : Bool) : ∃ atomic : List TFineAct → List TAct,
    (∀ as bs, atomic as <+: atomic (as ++ bs)) ∧
    ∀ as,
      let s := Fine.run { paused := paused } as
      let c := Conc.run { mem := { paused := paused } } (atomic as)
      c.mem.allocated = s.allocated ∧ c.mem.subs = s.subs ∧ c.calls = s.threads.filterMap Thread.enqueueing ∧
      ((∀ th ∈ s.threads, th.owes = none) → c.mem.jobs = s.jobs) ∧
      ((Conc.trace { mem := { paused := paused } } (atomic as)).filterMap TEv.opResult).Perm (s.threads.filterMap Thread.effect) ∧
      (∀ b ∈ atomic as, ∃ a ∈ as, a.now = b.now) ∧
      ((as.map (·.now)).Pairwise (· ≤ ·) → (((atomic as).filter fun b => !b.clockFirst).map (·.now)).Pairwise (· ≤ ·)) := by
  refine ⟨Fine.atomic { paused := paused }, fun as bs => ?_, fun as => ?_⟩
  · rw [atomic_append]
    exact List.prefix_append _ _
  · obtain ⟨h1, h2, h3⟩ := fine_reach paused as
    exact ⟨h1.allocated, h1.subs, h1.calls, h1.jobs, h3, h2.sent, h2.sorted⟩

/-! ## C115 -/

/-- The call has returned. -/
def Thread.finished (c : Thread) : Bool :=
  match c.phase with
  | .out => c.pos.isOver
  | _ => false

private def Pos.steps : Pos → Nat
  | .op _ => 1
  | .returned _ _ => 0
  | .enqueue (.start _) => 4
  | .enqueue (.noMatch _) => 3
  | .enqueue (.allocated _ _) => 2
  | .enqueue (.pushed _ _) => 1
  | .enqueue (.matched _) => 1
  | .enqueue (.done _) => 0

private def Thread.todo (c : Thread) : Nat :=
  match c.phase with
  | .out => 6 * c.pos.steps
  | .ticked _ => 6 * c.pos.steps - 1
  | .inside _ => 6 * c.pos.steps - 2
  | .told _ next _ _ => 6 * next.steps + 3
  | .telling _ next _ _ => 6 * next.steps + 2
  | .leaving next => 6 * next.steps + 1

private theorem steps_zero {p : Pos} : p.steps = 0 ↔ p.isOver = true := by
  cases p with
  | op o => simp [Pos.steps, Pos.isOver]
  | returned o r => simp [Pos.steps, Pos.isOver]
  | enqueue q => cases q <;> simp [Pos.steps, Pos.isOver]

private theorem steps_jobs {p : Pos} {b : Bool} {m : LockMode} (h : p.needs b = .jobs m) (now : Time) (js : List KeyedJob) :
    (p.onJobs now js).1.steps < p.steps := by
  cases p with
  | op o => simp [Pos.onJobs, Pos.steps]
  | returned o r => cases h
  | enqueue q =>
    cases q with
    | start e => simp only [Pos.onJobs]; split <;> simp [Pos.steps]
    | allocated id e => simp [Pos.onJobs, Pos.steps]
    | matched job => simp only [Pos.onJobs]; split <;> simp [Pos.steps]
    | pushed id e => simp only [Pos.needs] at h; split at h <;> cases h
    | noMatch e => cases h
    | done r => cases h

private theorem steps_subs {p : Pos} {b : Bool} {m : LockMode} (h : p.needs b = .subs m) (now : Time) (ss : List Sub) :
    (p.onSubs now ss).1.steps < p.steps := by
  cases p with
  | op o => cases o <;> first | (simp [Pos.onSubs, Pos.steps]; done) | cases h
  | returned o r => cases h
  | enqueue q =>
    cases q with
    | start e => simp only [Pos.needs] at h; split at h <;> cases h
    | pushed id e => simp [Pos.onSubs, Pos.steps]
    | _ => cases h

private theorem steps_nothing {p : Pos} {b : Bool} (h : p.needs b = .nothing) (ho : p.isOver = false) (n : Nat) :
    (p.onNothing n).1.steps < p.steps := by
  cases p with
  | op o => cases o <;> cases h
  | returned o r => cases ho
  | enqueue q =>
    cases q with
    | start e => simp [Pos.onNothing, Pos.steps]
    | noMatch e => simp [Pos.onNothing, Pos.steps]
    | pushed id e => simp [Pos.onNothing, Pos.steps]
    | allocated id e => cases h
    | matched job => cases h
    | done r => cases ho

/-- a thread that has taken a lock, or read the clock for it, needs it -/
private def FineNeeds (s : Fine) : Prop :=
  ∀ th ∈ s.threads, (∀ t, th.phase = .ticked t → th.pos.needs s.paused ≠ .nothing) ∧ (∀ t, th.phase = .inside t → th.pos.needs s.paused ≠ .nothing)

private theorem needs_not_over {p : Pos} {b : Bool} (h : p.needs b ≠ .nothing) : p.isOver = false := by
  cases p with
  | op o => rfl
  | returned o r => exact absurd rfl h
  | enqueue q =>
    cases q with
    | done r => exact absurd rfl h
    | _ => rfl

private theorem first_needs {p : Pos} {b : Bool} (h : p.clockFirst = true) : p.needs b ≠ .nothing := by
  cases p with
  | op o => cases o <;> first | cases h; done | (intro h; cases h)
  | returned o r => cases h
  | enqueue q => cases h

/-- what a thread that goes on has left to do -/
private theorem advance_todo_fine {s s' : Fine} {now : Time} {i : Nat} {th : Thread} (hn : FineNeeds s) (hi : s.threads[i]? = some th)
    (h : s.advance now i th = some s') :
    s'.paused = s.paused ∧
    ((th.finished = true ∧ s' = s) ∨ ∃ th', s'.threads = s.threads.set i th' ∧ th'.todo < th.todo ∧
      (∀ t, th'.phase = .ticked t → th'.pos.needs s.paused ≠ .nothing) ∧ (∀ t, th'.phase = .inside t → th'.pos.needs s.paused ≠ .nothing)) := by
  have hmem := List.mem_of_getElem? hi
  unfold Fine.advance at h
  cases hph : th.phase with
  | out =>
    simp only [hph] at h
    split at h
    · rename_i hov
      cases h; exact ⟨rfl, .inl ⟨by simp [Thread.finished, hph, hov], rfl⟩⟩
    · rename_i hov
      have hst : th.pos.steps ≠ 0 := fun h => hov (steps_zero.mp h)
      split at h
      · rename_i hcf
        cases h
        refine ⟨rfl, .inr ⟨_, rfl, ?_, ?_, ?_⟩⟩
        · simp only [Thread.todo, hph]; omega
        · intro t ht; exact first_needs hcf
        · intro t ht; cases ht
      · split at h
        · rename_i hn'
          cases h
          refine ⟨rfl, .inr ⟨_, rfl, ?_, ?_, ?_⟩⟩
          · have := steps_nothing hn' (by simpa using hov) s.allocated
            simp only [Thread.todo, hph]; omega
          · intro t ht; cases ht
          · intro t ht; cases ht
        · obtain ⟨ph, he, rfl⟩ := Option.map_eq_some_iff.mp h
          obtain ⟨rfl, hne⟩ := enter_some he
          refine ⟨rfl, .inr ⟨_, rfl, ?_, ?_, ?_⟩⟩
          · simp only [Thread.todo, hph]; omega
          · intro t ht; cases ht
          · intro t ht
            rcases hne with ⟨m, h, -⟩ | ⟨m, h, -⟩ <;> (simp only [h]; simp)
  | ticked t =>
    simp only [hph] at h
    obtain ⟨ph, he, rfl⟩ := Option.map_eq_some_iff.mp h
    obtain ⟨rfl, hne⟩ := enter_some he
    have hst : th.pos.steps ≠ 0 := fun h => by
      have := needs_not_over ((hn th hmem).1 t hph)
      rw [steps_zero.mp h] at this; cases this
    refine ⟨rfl, .inr ⟨_, rfl, ?_, ?_, ?_⟩⟩
    · simp only [Thread.todo, hph]; omega
    · intro t ht; cases ht
    · intro t ht
      rcases hne with ⟨m, h, -⟩ | ⟨m, h, -⟩ <;> (simp only [h]; simp)
  | inside t =>
    simp only [hph] at h
    split at h
    · rename_i hn'
      split at h
      · rename_i hd
        have := steps_jobs hn' (t.getD now) s.jobs
        rw [hd] at this
        dsimp only at this
        cases h
        refine ⟨rfl, .inr ⟨_, rfl, ?_, ?_, ?_⟩⟩
        · simp only [Thread.todo, hph]; omega
        · intro t ht; cases ht
        · intro t ht; cases ht
      · rename_i hd
        have := steps_jobs hn' (t.getD now) s.jobs
        rw [hd] at this
        dsimp only at this
        cases h
        refine ⟨rfl, .inr ⟨_, rfl, ?_, ?_, ?_⟩⟩
        · simp only [Thread.todo, hph]; omega
        · intro t ht; cases ht
        · intro t ht; cases ht
    · rename_i hn'
      have := steps_subs hn' (t.getD now) s.subs
      cases h
      refine ⟨rfl, .inr ⟨_, rfl, ?_, ?_, ?_⟩⟩
      · simp only [Thread.todo, hph]; omega
      · intro t ht; cases ht
      · intro t ht; cases ht
    · rename_i hn'
      exact absurd hn' ((hn th hmem).2 t hph)
  | told t next x at' =>
    simp only [hph] at h
    split at h
    · cases h
      refine ⟨rfl, .inr ⟨_, rfl, ?_, ?_, ?_⟩⟩
      · simp only [Thread.todo, hph]; omega
      · intro t ht; cases ht
      · intro t ht; cases ht
    · split at h
      · cases h
        refine ⟨rfl, .inr ⟨_, rfl, ?_, ?_, ?_⟩⟩
        · simp only [Thread.todo, hph]; omega
        · intro t ht; cases ht
        · intro t ht; cases ht
      · cases h
  | telling t next x at' =>
    simp only [hph] at h
    cases h
    refine ⟨rfl, .inr ⟨_, rfl, ?_, ?_, ?_⟩⟩
    · simp only [Thread.todo, hph]; omega
    · intro t ht; cases ht
    · intro t ht; cases ht
  | leaving next =>
    simp only [hph] at h
    cases h
    refine ⟨rfl, .inr ⟨_, rfl, ?_, ?_, ?_⟩⟩
    · simp only [Thread.todo, hph]; omega
    · intro t ht; cases ht
    · intro t ht; cases ht

private theorem FineNeeds.step {s : Fine} (h : FineNeeds s) (now : Time) (act : FineAct) : FineNeeds (s.step now act).2 := by
  have new : ∀ p : Pos, FineNeeds { s with threads := s.threads ++ [{ pos := p }] } := by
    intro p th hth
    rcases List.mem_append.mp hth with hth | hth
    · exact h th hth
    · rw [List.mem_singleton.mp hth]
      exact ⟨fun t ht => (nomatch ht), fun t ht => (nomatch ht)⟩
  cases act with
  | call o => exact new _
  | enqueue e => exact new _
  | advance i =>
    simp only [Fine.step]
    cases hi : s.threads[i]? with
    | none => exact h
    | some th =>
      simp only []
      cases ha : s.advance now i th with
      | none => exact h
      | some s' =>
        obtain ⟨hp, hr⟩ := advance_todo_fine h hi ha
        rcases hr with ⟨-, rfl⟩ | ⟨th', ht, -, h1, h2⟩
        · exact h
        · intro y hy
          simp only [ht] at hy
          simp only [hp]
          rcases set_cases hy with rfl | ⟨j, hj, hy⟩
          · exact ⟨h1, h2⟩
          · exact h y (List.mem_of_getElem? hy)

private theorem fine_needs (paused : Bool) (as : List TFineAct) : FineNeeds (Fine.run { paused := paused } as) := by
  suffices h : ∀ s : Fine, FineNeeds s → FineNeeds (s.run as) from h _ (by intro th hth; cases hth)
  induction as with
  | nil => exact fun s h => h
  | cons a as ih => exact fun s h => ih _ (h.step a.now a.act)

private theorem fine_todo_le (paused : Bool) (as : List TFineAct) : ∀ th ∈ (Fine.run { paused := paused } as).threads, th.todo ≤ 24 := by
  suffices h : ∀ s : Fine, FineNeeds s → (∀ th ∈ s.threads, th.todo ≤ 24) → ∀ th ∈ (s.run as).threads, th.todo ≤ 24 from
    h _ (by intro th hth; cases hth) (by intro th hth; cases hth)
  induction as with
  | nil => exact fun s _ h => h
  | cons a as ih =>
    intro s hn h
    refine ih _ (hn.step a.now a.act) ?_
    cases a.act with
    | call o =>
      intro th hth
      rcases List.mem_append.mp hth with hth | hth
      · exact h th hth
      · rw [List.mem_singleton.mp hth]; simp [Thread.todo, Pos.steps]
    | enqueue e =>
      intro th hth
      rcases List.mem_append.mp hth with hth | hth
      · exact h th hth
      · rw [List.mem_singleton.mp hth]; simp [Thread.todo, Pos.steps]
    | advance i =>
      simp only [Fine.step]
      cases hi : s.threads[i]? with
      | none => exact h
      | some th =>
        simp only []
        cases ha : s.advance a.now i th with
        | none => exact h
        | some s' =>
          obtain ⟨-, hr⟩ := advance_todo_fine hn hi ha
          rcases hr with ⟨-, rfl⟩ | ⟨th', ht, hlt, -, -⟩
          · exact h
          · intro y hy
            simp only [ht] at hy
            rcases set_cases hy with rfl | ⟨j, hj, hy⟩
            · exact Nat.le_trans (Nat.le_of_lt hlt) (h th (List.mem_of_getElem? hi))
            · exact h y (List.mem_of_getElem? hy)

/-- a thread that does not go on is before a lock -/
private theorem advance_none {s : Fine} {now : Time} {i : Nat} {th : Thread} (hn : FineNeeds s) (hi : s.threads[i]? = some th)
    (h : s.advance now i th = none) :
    (∃ m, s.jobsFree m = false ∧ th.holdsJobs s.paused = none) ∨
    (∃ m, s.subsFree m = false) := by
  have key : ∀ {t}, s.enter th.pos t = none → th.holdsJobs s.paused = none → th.pos.needs s.paused ≠ .nothing →
      (∃ m, s.jobsFree m = false ∧ th.holdsJobs s.paused = none) ∨ (∃ m, s.subsFree m = false) := by
    intro t he hp hne
    unfold Fine.enter at he
    split at he
    · rename_i m hm
      split at he
      · cases he
      · rename_i hf; exact .inl ⟨m, by simpa using hf, hp⟩
    · rename_i m hm
      split at he
      · cases he
      · rename_i hf; exact .inr ⟨m, by simpa using hf⟩
    · rename_i hm; exact absurd hm hne
  unfold Fine.advance at h
  cases hph : th.phase with
  | out =>
    simp only [hph] at h
    split at h
    · cases h
    · split at h
      · cases h
      · split at h
        · cases h
        · rename_i hne
          exact key (Option.map_eq_none_iff.mp h) (by simp [Thread.holdsJobs, hph]) hne
  | ticked t =>
    simp only [hph] at h
    exact key (Option.map_eq_none_iff.mp h) (by simp [Thread.holdsJobs, hph]) ((hn th (List.mem_of_getElem? hi)).1 t hph)
  | inside t =>
    simp only [hph] at h
    split at h
    · split at h <;> cases h
    · cases h
    · cases h
  | told t next x at' =>
    simp only [hph] at h
    split at h
    · cases h
    · split at h
      · cases h
      · rename_i hf; exact .inr ⟨.read, by simpa using hf⟩
  | telling t next x at' => simp only [hph] at h; cases h
  | leaving next => simp only [hph] at h; cases h

/-- waiting does not depend on the clock -/
private theorem advance_now {s : Fine} {now now' : Time} {i : Nat} {th : Thread} (h : s.advance now i th = none) :
    s.advance now' i th = s.advance now i th := by
  rw [h]
  unfold Fine.advance at h ⊢
  cases hph : th.phase with
  | out =>
    simp only [hph] at h ⊢
    split at h
    · cases h
    · rename_i h1
      split at h
      · cases h
      · rename_i h2
        simp only [h1, h2, Bool.false_eq_true, if_false]
        exact h
  | ticked t => simpa only [hph] using h
  | inside t =>
    simp only [hph] at h
    split at h
    · split at h <;> cases h
    · cases h
    · cases h
  | told t next x at' => simpa only [hph] using h
  | telling t next x at' => simp only [hph] at h; cases h
  | leaving next => simp only [hph] at h; cases h

private theorem finished_todo {th : Thread} : th.finished = true → th.todo = 0 := by
  unfold Thread.finished Thread.todo
  cases th.phase <;> simp
  exact fun h => by rw [steps_zero.mpr h]

private theorem todo_finished {s : Fine} (hn : FineNeeds s) {th : Thread} (hth : th ∈ s.threads) (h : th.todo = 0) : th.finished = true := by
  unfold Thread.todo at h
  cases hph : th.phase with
  | out =>
    simp only [hph] at h
    simp only [Thread.finished, hph]
    exact steps_zero.mp (by omega)
  | ticked t =>
    have := needs_not_over ((hn th hth).1 t hph)
    have : th.pos.steps ≠ 0 := fun h => by rw [steps_zero.mp h] at this; cases this
    simp only [hph] at h
    omega
  | inside t =>
    have := needs_not_over ((hn th hth).2 t hph)
    have : th.pos.steps ≠ 0 := fun h => by rw [steps_zero.mp h] at this; cases this
    simp only [hph] at h
    omega
  | told t next x at' => simp only [hph] at h; omega
  | telling t next x at' => simp only [hph] at h; omega
  | leaving next => simp only [hph] at h; omega

private theorem holds_unfinished {b : Bool} {th : Thread} (h : th.holdsJobs b ≠ none ∨ th.holdsSubs b ≠ none) : th.finished = false := by
  unfold Thread.finished
  cases hph : th.phase with
  | out => rcases h with h | h <;> simp [Thread.holdsJobs, Thread.holdsSubs, hph] at h
  | _ => rfl

/-- somebody can go on -/
private theorem fine_ready {s : Fine} (hn : FineNeeds s) (now : Time) (h : ∃ th ∈ s.threads, th.finished = false) :
    ∃ (i : Nat) (th : Thread), s.threads[i]? = some th ∧ th.finished = false ∧ s.advance now i th ≠ none := by
  by_cases hs : ∃ th ∈ s.threads, th.holdsSubs s.paused ≠ none
  · obtain ⟨th, hth, hh⟩ := hs
    obtain ⟨i, hi⟩ := List.getElem?_of_mem hth
    refine ⟨i, th, hi, holds_unfinished (.inr hh), fun ha => ?_⟩
    unfold Fine.advance at ha
    cases hph : th.phase with
    | out => simp [Thread.holdsSubs, hph] at hh
    | ticked t => simp [Thread.holdsSubs, hph] at hh
    | told t next x at' => simp [Thread.holdsSubs, hph] at hh
    | inside t =>
      simp only [hph] at ha
      split at ha
      · split at ha <;> cases ha
      · cases ha
      · cases ha
    | telling t next x at' => simp only [hph] at ha; cases ha
    | leaving next => simp only [hph] at ha; cases ha
  · have hsf : ∀ m, s.subsFree m = true := by
      intro m
      have hz : ∀ th ∈ s.threads, th.holdsSubs s.paused = none := by
        intro th hth
        cases hh : th.holdsSubs s.paused with
        | none => rfl
        | some m => exact absurd ⟨th, hth, by simp [hh]⟩ hs
      cases m <;> simp only [Fine.subsFree, List.all_eq_true] <;> intro th hth <;> simp [hz th hth]
    by_cases hj : ∃ th ∈ s.threads, th.holdsJobs s.paused ≠ none
    · obtain ⟨th, hth, hh⟩ := hj
      obtain ⟨i, hi⟩ := List.getElem?_of_mem hth
      refine ⟨i, th, hi, holds_unfinished (.inl hh), fun ha => ?_⟩
      rcases advance_none hn hi ha with ⟨m, -, h0⟩ | ⟨m, hm⟩
      · exact hh h0
      · rw [hsf] at hm; cases hm
    · have hjf : ∀ m, s.jobsFree m = true := by
        intro m
        have hz : ∀ th ∈ s.threads, th.holdsJobs s.paused = none := by
          intro th hth
          cases hh : th.holdsJobs s.paused with
          | none => rfl
          | some m => exact absurd ⟨th, hth, by simp [hh]⟩ hj
        cases m <;> simp only [Fine.jobsFree, List.all_eq_true] <;> intro th hth <;> simp [hz th hth]
      obtain ⟨th, hth, hf⟩ := h
      obtain ⟨i, hi⟩ := List.getElem?_of_mem hth
      refine ⟨i, th, hi, hf, fun ha => ?_⟩
      rcases advance_none hn hi ha with ⟨m, hm, -⟩ | ⟨m, hm⟩
      · rw [hjf] at hm; cases hm
      · rw [hsf] at hm; cases hm

/-- **C115, no deadlock.** Whatever calls run at the same time on the in-memory backend and
however far they are: unless all have returned, there is one that can go on without
waiting for a lock. -/
theorem C115_never_stuck (paused : Bool) (as : List TFineAct) (now : Time)
    (h : ∃ th ∈ (Fine.run { paused := paused } as).threads, th.finished = false) :
    ∃ (i : Nat) (th : Thread), (Fine.run { paused := paused } as).threads[i]? = some th ∧ th.finished = false ∧
      ((Fine.run { paused := paused } as).step now (.advance i)).1 = false := by
  obtain ⟨i, th, hi, hf, ha⟩ := fine_ready (fine_needs paused as) now h
  refine ⟨i, th, hi, hf, ?_⟩
  simp only [Fine.step, hi]
  split
  · rename_i hx; exact absurd hx ha
  · rfl

private def fineTodo : List Thread → Nat
  | [] => 0
  | c :: cs => c.todo + fineTodo cs

private theorem fineTodo_set {l : List Thread} {i : Nat} {a b : Thread} (h : l[i]? = some a) : fineTodo (l.set i b) + a.todo = fineTodo l + b.todo := by
  induction l generalizing i with
  | nil => simp at h
  | cons x l ih =>
    cases i with
    | zero => simp only [List.getElem?_cons_zero, Option.some.injEq] at h; subst h; simp only [List.set_cons_zero, fineTodo]; omega
    | succ i =>
      have := ih (i := i) (by simpa using h)
      simp only [List.set_cons_succ, fineTodo]; omega

private theorem fineTodo_zero {l : List Thread} (h : fineTodo l = 0) : ∀ th ∈ l, th.todo = 0 := by
  induction l with
  | nil => intro th hth; cases hth
  | cons x l ih =>
    simp only [fineTodo] at h
    intro th hth
    rcases List.mem_cons.mp hth with rfl | hth
    · omega
    · exact ih (by omega) th hth

/-- one action of a round: nothing happens, or less is left to do -/
private theorem fine_step_todo {s : Fine} (hn : FineNeeds s) (now : Time) (i : Nat) :
    ((s.step now (.advance i)).2 = s ∧ ∀ th, s.threads[i]? = some th → th.finished = true ∨ ∀ now, s.advance now i th = none) ∨
    ((s.step now (.advance i)).2.threads.length = s.threads.length ∧ fineTodo (s.step now (.advance i)).2.threads < fineTodo s.threads) := by
  simp only [Fine.step]
  cases hi : s.threads[i]? with
  | none => exact .inl ⟨rfl, fun th h => by cases h⟩
  | some th =>
    simp only []
    cases ha : s.advance now i th with
    | none =>
      refine .inl ⟨rfl, fun th' h => ?_⟩
      cases h
      exact .inr fun now' => by rw [← ha]; exact advance_now ha
    | some s' =>
      obtain ⟨-, hr⟩ := advance_todo_fine hn hi ha
      rcases hr with ⟨hf, rfl⟩ | ⟨th', ht, hlt, -, -⟩
      · exact .inl ⟨rfl, fun th' h => by cases h; exact .inl hf⟩
      · right
        have := fineTodo_set (b := th') hi
        simp only [ht]
        exact ⟨by simp, by omega⟩

private theorem fine_round {n : Nat} (round : List TFineAct) {s : Fine} (hn : FineNeeds s) (hl : s.threads.length = n)
    (hadv : ∀ a ∈ round, ∃ i, a.act = .advance i) :
    FineNeeds (s.run round) ∧ (s.run round).threads.length = n ∧
      ((s.run round = s ∧ ∀ a ∈ round, ∀ i th, a.act = .advance i → s.threads[i]? = some th →
          th.finished = true ∨ ∀ now, s.advance now i th = none) ∨
        fineTodo (s.run round).threads < fineTodo s.threads) := by
  induction round generalizing s with
  | nil => exact ⟨hn, hl, .inl ⟨rfl, fun a ha => (nomatch ha)⟩⟩
  | cons a round ih =>
    obtain ⟨i, hi⟩ := hadv a List.mem_cons_self
    have hrest : ∀ b ∈ round, ∃ i, b.act = .advance i := fun b hb => hadv b (List.mem_cons_of_mem _ hb)
    simp only [Fine.run]
    have hn' := hn.step a.now a.act
    rw [hi] at hn' ⊢
    rcases fine_step_todo hn a.now i with ⟨he, hw⟩ | ⟨hlen, hlt⟩
    · rw [he]
      obtain ⟨h1, h2, h3⟩ := ih hn hl hrest
      refine ⟨h1, h2, h3.imp_left fun h => ⟨h.1, fun b hb j th hj hth => ?_⟩⟩
      rcases List.mem_cons.mp hb with rfl | hb
      · rw [hi] at hj
        cases hj
        exact hw th hth
      · exact h.2 b hb j th hj hth
    · obtain ⟨h1, h2, h3⟩ := ih hn' (hlen.trans hl) hrest
      refine ⟨h1, h2, .inr ?_⟩
      rcases h3 with ⟨h3, -⟩ | h3
      · rw [h3]; exact hlt
      · omega

/-- **C115, every call ends.** If the threads are each given a turn again and again, in any
order, and no further calls are made, then after at most 24 rounds for each thread all
calls have returned; nobody holds a lock then. -/
theorem C115_all_finish (paused : Bool) (as : List TFineAct) (rounds : List (List TFineAct))
    (hadv : ∀ round ∈ rounds, ∀ a ∈ round, ∃ i, a.act = .advance i)
    (hturn : ∀ round ∈ rounds, ∀ i < (Fine.run { paused := paused } as).threads.length, ∃ a ∈ round, a.act = .advance i)
    (hmany : 24 * (Fine.run { paused := paused } as).threads.length ≤ rounds.length) :
    ∀ th ∈ (Fine.run { paused := paused } (as ++ rounds.flatten)).threads,
      th.finished = true ∧ th.holdsJobs paused = none ∧ th.holdsSubs paused = none := by
  have key : ∀ (rounds : List (List TFineAct)) (s : Fine) (n : Nat), FineNeeds s → s.threads.length = n →
      (∀ round ∈ rounds, ∀ a ∈ round, ∃ i, a.act = .advance i) →
      (∀ round ∈ rounds, ∀ i < n, ∃ a ∈ round, a.act = .advance i) → fineTodo s.threads ≤ rounds.length →
      ∀ th ∈ (s.run rounds.flatten).threads, th.finished = true := by
    intro rounds
    induction rounds with
    | nil =>
      intro s n hn _ _ _ h th hth
      exact todo_finished hn hth (fineTodo_zero (Nat.le_zero.mp h) th hth)
    | cons round rounds ih =>
      intro s n hn hl ha ht hm
      obtain ⟨h1, h2, h3⟩ := fine_round round hn hl (ha round List.mem_cons_self)
      rw [List.flatten_cons, fine_run_append]
      refine ih _ n h1 h2 (fun r hr => ha r (List.mem_cons_of_mem _ hr)) (fun r hr => ht r (List.mem_cons_of_mem _ hr)) ?_
      simp only [List.length_cons] at hm
      rcases h3 with ⟨h3, hw⟩ | h3
      · have hz : fineTodo s.threads = 0 := by
          have hall : ∀ th ∈ s.threads, th.finished = true := by
            intro th hth
            cases hf : th.finished with
            | true => rfl
            | false =>
              obtain ⟨i, th', hi, hf', hne⟩ := fine_ready hn 0 ⟨th, hth, hf⟩
              obtain ⟨a, har, hai⟩ := ht round List.mem_cons_self i (hl ▸ (List.getElem?_eq_some_iff.mp hi).1)
              rcases hw a har i th' hai hi with g | g
              · rw [hf'] at g; cases g
              · exact absurd (g 0) hne
          have : ∀ l : List Thread, (∀ th ∈ l, th.finished = true) → fineTodo l = 0 := by
            intro l
            induction l with
            | nil => intro _; rfl
            | cons x l ih =>
              intro h
              simp only [fineTodo, finished_todo (h x List.mem_cons_self), ih fun y hy => h y (List.mem_cons_of_mem _ hy)]
          exact this _ hall
        rw [h3]; omega
      · omega
  have hbound : ∀ l : List Thread, (∀ th ∈ l, th.todo ≤ 24) → fineTodo l ≤ 24 * l.length := by
    intro l
    induction l with
    | nil => intro _; exact Nat.le_refl _
    | cons x l ih =>
      intro h
      have := ih fun y hy => h y (List.mem_cons_of_mem _ hy)
      have := h x List.mem_cons_self
      simp only [fineTodo, List.length_cons]; omega
  intro th hth
  rw [fine_run_append] at hth
  have hf := key rounds _ _ (fine_needs paused as) rfl hadv hturn (Nat.le_trans (hbound _ (fine_todo_le paused as)) hmany) th hth
  refine ⟨hf, ?_, ?_⟩
  · cases hh : th.holdsJobs paused with
    | none => rfl
    | some m => rw [holds_unfinished (b := paused) (.inl (by simp [hh]))] at hf; cases hf
  · cases hh : th.holdsSubs paused with
    | none => rfl
    | some m => rw [holds_unfinished (b := paused) (.inr (by simp [hh]))] at hf; cases hf

/-! ## An example -/

private def fineAct (now : Time) (act : FineAct) : TFineAct := { now := now, act := act }

/-- A job is enqueued. Then one thread snoozes it, another subscribes, a third prunes: the
first has changed the jobs and is to notify while the second has the lock on the subscribers
and the third has read the clock and waits for the jobs. -/
def lockHistory : List TFineAct :=
  [fineAct 0 (.enqueue sampleEnq)] ++ List.replicate 7 (fineAct 1 (.advance 0)) ++
  [fineAct 2 (.call (.snoozed 0 9)), fineAct 2 (.call (.subscribe "mail")), fineAct 2 (.call (.prune ⟨.cancelled, .maxLength 0, .except []⟩)),
   fineAct 3 (.advance 1), fineAct 4 (.advance 2), fineAct 5 (.advance 3), fineAct 6 (.advance 1), fineAct 7 (.advance 1)]

example : (Fine.run {} lockHistory).threads.map Thread.finished = [true, false, false, false] ∧
    (Fine.run {} lockHistory).threads.map (fun c => c.owes) = [none, some 6, none, none] ∧
    ([1, 2, 3].map fun i => ((Fine.run {} lockHistory).step 8 (.advance i)).1) = [true, false, true] ∧
    (Fine.run {} lockHistory).jobs.map (fun k => k.job.scheduledAt) = [9] ∧
    (Fine.run {} lockHistory).threads.map Thread.enqueueing = [some (.done (.id 0)), none, none, none] ∧
    (Fine.run {} lockHistory).threads.filterMap Thread.effect = [] ∧
    (lockHistory.map (·.now)).Pairwise (· ≤ ·) := by decide

/-- Rounds for the three calls. -/
def lockRounds (n : Nat) : List (List TFineAct) :=
  List.replicate n [fineAct 9 (.advance 0), fineAct 9 (.advance 1), fineAct 9 (.advance 2), fineAct 10 (.advance 3)]

set_option maxRecDepth 4000 in
/-- The theorem asks for 96 rounds; here seven are enough. The subscriber is told of the snooze although it
subscribed after the jobs had been changed. -/
example : (Fine.run {} (lockHistory ++ (lockRounds 7).flatten)).threads.map Thread.finished = [true, true, true, true] ∧
    (Fine.run {} (lockHistory ++ (lockRounds 2).flatten)).threads.map Thread.finished = [true, false, true, false] ∧
    (Fine.run {} (lockHistory ++ (lockRounds 7).flatten)).subs = [{ executor := "mail", queue := [9] }] := by decide

example : ∀ round ∈ lockRounds 76, (∀ a ∈ round, ∃ i, a.act = .advance i) ∧ ∀ i < 4, ∃ a ∈ round, a.act = .advance i := by
  intro round hr
  rw [List.eq_of_mem_replicate hr]
  refine ⟨?_, fun i hi => ?_⟩
  · intro a ha
    simp only [List.mem_cons, List.not_mem_nil, or_false] at ha
    rcases ha with rfl | rfl | rfl | rfl <;> exact ⟨_, rfl⟩
  · have : i = 0 ∨ i = 1 ∨ i = 2 ∨ i = 3 := by omega
    rcases this with rfl | rfl | rfl | rfl
    · exact ⟨_, List.mem_cons_self, rfl⟩
    · exact ⟨_, List.mem_cons_of_mem _ List.mem_cons_self, rfl⟩
    · exact ⟨_, List.mem_cons_of_mem _ (List.mem_cons_of_mem _ List.mem_cons_self), rfl⟩
    · exact ⟨_, List.mem_cons_of_mem _ (List.mem_cons_of_mem _ (List.mem_cons_of_mem _ List.mem_cons_self)), rfl⟩

/-- the thread is about to notify, or notifies, while it holds the jobs -/
private def Thread.notifies (c : Thread) : Bool :=
  match c.phase with
  | .told .. | .telling .. => true
  | _ => false

/-- how a thread's hold on a lock changes in a step: it stays, ends, or is taken when the lock is free -/
private def HoldsNext (free : LockMode → Bool) (h h' : Option LockMode) : Prop :=
  h' = h ∨ h' = none ∨ ∃ m, h' = some m ∧ free m = true

private theorem advance_holds {s s' : Fine} {now : Time} {i : Nat} {c : Thread} (h : s.advance now i c = some s') (hi : s.threads[i]? = some c)
    (hn : c.notifies = true → ∃ m, c.pos.needs s.paused = .jobs m) :
    s'.paused = s.paused ∧ ∃ c', s'.threads = s.threads.set i c' ∧
      HoldsNext s.jobsFree (c.holdsJobs s.paused) (c'.holdsJobs s.paused) ∧
      HoldsNext s.subsFree (c.holdsSubs s.paused) (c'.holdsSubs s.paused) ∧ (c'.notifies = true → ∃ m, c'.pos.needs s.paused = .jobs m) := by
  have hself : s.threads = s.threads.set i c := by
    obtain ⟨hlt, rfl⟩ := List.getElem?_eq_some_iff.mp hi
    exact (List.set_getElem_self hlt).symm
  have enters : ∀ {t ph}, s.enter c.pos t = some ph →
      HoldsNext s.jobsFree (c.holdsJobs s.paused) ({ c with phase := ph : Thread }.holdsJobs s.paused) ∧
      HoldsNext s.subsFree (c.holdsSubs s.paused) ({ c with phase := ph : Thread }.holdsSubs s.paused) ∧
      ({ c with phase := ph : Thread }).notifies = false := by
    intro t ph he
    unfold Fine.enter at he
    cases hn : c.pos.needs s.paused with
    | jobs m =>
      rw [hn] at he
      simp only at he
      split at he
      · cases he
        exact ⟨.inr (.inr ⟨m, by simp [Thread.holdsJobs, hn], by assumption⟩), .inr (.inl (by simp [Thread.holdsSubs, hn])), rfl⟩
      · cases he
    | subs m =>
      rw [hn] at he
      simp only at he
      split at he
      · cases he
        exact ⟨.inr (.inl (by simp [Thread.holdsJobs, hn])), .inr (.inr ⟨m, by simp [Thread.holdsSubs, hn], by assumption⟩), rfl⟩
      · cases he
    | nothing => rw [hn] at he; cases he
  obtain ⟨pos, phase⟩ := c
  unfold Fine.advance at h
  cases phase with
  | out =>
    simp only at h
    split at h
    · cases h; exact ⟨rfl, _, hself, .inl rfl, .inl rfl, nofun⟩
    · split at h
      · cases h
        exact ⟨rfl, _, rfl, .inr (.inl (by simp [Thread.holdsJobs])), .inr (.inl (by simp [Thread.holdsSubs])), nofun⟩
      · split at h
        · cases h
          exact ⟨rfl, _, rfl, .inr (.inl (by simp [Thread.holdsJobs])), .inr (.inl (by simp [Thread.holdsSubs])), nofun⟩
        · simp only [Option.map_eq_some_iff] at h
          obtain ⟨ph, h1, rfl⟩ := h
          obtain ⟨g1, g2, g3⟩ := enters h1
          exact ⟨rfl, _, rfl, g1, g2, fun h => by rw [g3] at h; cases h⟩
  | ticked t =>
    simp only [Option.map_eq_some_iff] at h
    obtain ⟨ph, h1, rfl⟩ := h
    obtain ⟨g1, g2, g3⟩ := enters h1
    exact ⟨rfl, _, rfl, g1, g2, fun h => by rw [g3] at h; cases h⟩
  | inside t =>
    simp only at h
    cases hn : pos.needs s.paused with
    | jobs m =>
      rw [hn] at h
      simp only at h
      split at h <;> cases h <;>
        exact ⟨rfl, _, rfl, .inl (by simp [Thread.holdsJobs, hn]), .inl (by simp [Thread.holdsSubs, hn]), fun _ => ⟨m, hn⟩⟩
    | subs m =>
      rw [hn] at h
      cases h
      exact ⟨rfl, _, rfl, .inl (by simp [Thread.holdsJobs, hn]), .inl (by simp [Thread.holdsSubs, hn]), nofun⟩
    | nothing => rw [hn] at h; cases h; exact ⟨rfl, _, hself, .inl rfl, .inl rfl, nofun⟩
  | told t next x at' =>
    obtain ⟨m, hm⟩ := hn rfl
    simp only at h hm
    split at h
    · cases h
      exact ⟨rfl, _, rfl, .inl (by simp [Thread.holdsJobs, hm]), .inr (.inl (by simp [Thread.holdsSubs, hm])), nofun⟩
    · split at h
      · cases h
        exact ⟨rfl, _, rfl, .inl (by simp [Thread.holdsJobs, hm]), .inr (.inr ⟨.read, by simp [Thread.holdsSubs], by assumption⟩), fun _ => ⟨m, hm⟩⟩
      · cases h
  | telling t next x at' =>
    obtain ⟨m, hm⟩ := hn rfl
    simp only at h hm
    cases h
    exact ⟨rfl, _, rfl, .inl (by simp [Thread.holdsJobs, hm]), .inr (.inl (by simp [Thread.holdsSubs, hm])), nofun⟩
  | leaving next =>
    simp only at h
    cases h
    exact ⟨rfl, _, rfl, .inr (.inl (by simp [Thread.holdsJobs])), .inr (.inl (by simp [Thread.holdsSubs])), nofun⟩

private structure Exclusive (s : Fine) : Prop where
  jobs : ∀ (i j : Nat) (a b : Thread), i ≠ j → s.threads[i]? = some a → s.threads[j]? = some b → a.holdsJobs s.paused = some .write → b.holdsJobs s.paused = none
  subs : ∀ (i j : Nat) (a b : Thread), i ≠ j → s.threads[i]? = some a → s.threads[j]? = some b → a.holdsSubs s.paused = some .write → b.holdsSubs s.paused = none
  notifies : ∀ th ∈ s.threads, th.notifies = true → ∃ m, th.pos.needs s.paused = .jobs m

private theorem exclusive_lock {l : List Thread} {i : Nat} {c c' : Thread} {holds : Thread → Option LockMode} {free : LockMode → Bool}
    (hi : l[i]? = some c) (hr : free .read = l.all fun c => holds c != some .write) (hw : free .write = l.all fun c => holds c == none)
    (E : ∀ (i j : Nat) (a b : Thread), i ≠ j → l[i]? = some a → l[j]? = some b → holds a = some .write → holds b = none)
    (hn : HoldsNext free (holds c) (holds c')) :
    ∀ (x y : Nat) (a b : Thread), x ≠ y → (l.set i c')[x]? = some a → (l.set i c')[y]? = some b → holds a = some .write → holds b = none := by
  have hlt := (List.getElem?_eq_some_iff.mp hi).1
  intro x y a b hxy ha hb haw
  by_cases hx : i = x
  · subst hx
    rw [List.getElem?_set_self hlt] at ha
    cases ha
    rw [List.getElem?_set_ne hxy] at hb
    rcases hn with h | h | ⟨m, h, hf⟩
    · rw [h] at haw; exact E i y c b hxy hi hb haw
    · rw [h] at haw; cases haw
    · rw [haw] at h
      cases h
      rw [hw] at hf
      simpa using List.all_eq_true.mp hf b (List.mem_of_getElem? hb)
  · rw [List.getElem?_set_ne hx] at ha
    by_cases hy : i = y
    · subst hy
      rw [List.getElem?_set_self hlt] at hb
      cases hb
      rcases hn with h | h | ⟨m, h, hf⟩
      · rw [h]; exact E x i a c hxy ha hi haw
      · exact h
      · exfalso
        cases m with
        | read =>
          rw [hr] at hf
          have := List.all_eq_true.mp hf a (List.mem_of_getElem? ha)
          rw [haw] at this
          cases this
        | write =>
          rw [hw] at hf
          have := List.all_eq_true.mp hf a (List.mem_of_getElem? ha)
          rw [haw] at this
          cases this
    · rw [List.getElem?_set_ne hy] at hb
      exact E x y a b hxy ha hb haw

private theorem Exclusive.begin {s : Fine} (E : Exclusive s) (p : Pos) : Exclusive { s with threads := s.threads ++ [{ pos := p }] } := by
  have hj : (⟨p, .out⟩ : Thread).holdsJobs s.paused = none := by simp [Thread.holdsJobs]
  have hs : (⟨p, .out⟩ : Thread).holdsSubs s.paused = none := by simp [Thread.holdsSubs]
  have get : ∀ {x : Nat} {a : Thread}, (s.threads ++ [⟨p, .out⟩])[x]? = some a → s.threads[x]? = some a ∨ a = ⟨p, .out⟩ := by
    intro x a h
    rw [List.getElem?_append] at h
    split at h
    · exact .inl h
    · exact .inr (by simpa using (List.mem_of_getElem? h))
  refine ⟨?_, ?_, ?_⟩
  · intro x y a b hxy ha hb haw
    rcases get ha with ha | rfl
    · rcases get hb with hb | rfl
      · exact E.jobs x y a b hxy ha hb haw
      · exact hj
    · rw [show _ = _ from hj] at haw; cases haw
  · intro x y a b hxy ha hb haw
    rcases get ha with ha | rfl
    · rcases get hb with hb | rfl
      · exact E.subs x y a b hxy ha hb haw
      · exact hs
    · rw [show _ = _ from hs] at haw; cases haw
  · intro th hth
    rcases List.mem_append.mp hth with h | h
    · exact E.notifies th h
    · rw [List.mem_singleton.mp h]; exact nofun

private theorem Exclusive.step {s : Fine} (E : Exclusive s) (now : Time) (a : FineAct) : Exclusive (s.step now a).2 := by
  cases a with
  | call o => exact E.begin _
  | enqueue e => exact E.begin _
  | advance i =>
    simp only [Fine.step]
    cases hi : s.threads[i]? with
    | none => exact E
    | some c =>
      simp only
      cases h : s.advance now i c with
      | none => exact E
      | some s' =>
        obtain ⟨hp, c', ht, h1, h2, h3⟩ := advance_holds h hi (E.notifies c (List.mem_of_getElem? hi))
        refine ⟨?_, ?_, ?_⟩
        · rw [hp, ht]
          exact exclusive_lock (holds := fun c => c.holdsJobs s.paused) hi rfl rfl E.jobs h1
        · rw [hp, ht]
          exact exclusive_lock (holds := fun c => c.holdsSubs s.paused) hi rfl rfl E.subs h2
        · rw [hp, ht]
          intro th hth
          rcases List.mem_or_eq_of_mem_set hth with h | rfl
          · exact E.notifies th h
          · exact h3

/-- **C114, exclusion.** In every interleaving of calls by any number of threads, while one thread holds the lock on the jobs for writing no other
thread holds it in any way, and the same for the lock on the subscribers. -/
theorem C114_exclusive (paused : Bool) (as : List TFineAct) (i j : Nat) (a b : Thread) (hij : i ≠ j)
    (ha : (Fine.run { paused := paused } as).threads[i]? = some a) (hb : (Fine.run { paused := paused } as).threads[j]? = some b) :
    (a.holdsJobs paused = some .write → b.holdsJobs paused = none) ∧ (a.holdsSubs paused = some .write → b.holdsSubs paused = none) := by
  have key : ∀ (as : List TFineAct) (s : Fine), Exclusive s → Exclusive (s.run as) ∧ (s.run as).paused = s.paused := by
    intro as
    induction as with
    | nil => exact fun s h => ⟨h, rfl⟩
    | cons x as ih =>
      intro s h
      obtain ⟨g1, g2⟩ := ih _ (h.step x.now x.act)
      refine ⟨g1, g2.trans ?_⟩
      cases hx : x.act with
      | call o => rfl
      | enqueue e => rfl
      | advance i =>
        simp only [Fine.step]
        cases hi : s.threads[i]? with
        | none => rfl
        | some c =>
          simp only
          cases ha : s.advance x.now i c with
          | none => rfl
          | some s' => exact (advance_holds ha hi (h.notifies c (List.mem_of_getElem? hi))).1
  obtain ⟨E, hp⟩ := key as { paused := paused } ⟨by simp, by simp, by simp⟩
  have h1 := E.jobs i j a b hij ha hb
  have h2 := E.subs i j a b hij ha hb
  rw [hp] at h1 h2
  exact ⟨h1, h2⟩

/-- Meeting the hypotheses: the snooze holds the jobs for writing, the subscription the subscribers; the snooze waits for the latter and the
pruner for the former. -/
example : (Fine.run {} lockHistory).threads.map (·.holdsJobs false) = [none, some .write, none, none] ∧
    (Fine.run {} lockHistory).threads.map (·.holdsSubs false) = [none, none, some .write, none] := by decide

end Rexecutor
