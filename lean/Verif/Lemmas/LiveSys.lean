import Verif.Model.Live
import Verif.Model.System

/-!
# Runners with streams and runners without

`Sys` leaves out how a runner waits for a job. Every schedule of runners with their streams (`Live`) is
one of `Sys`, with the same calls, executions and reports.
-/

namespace Rexecutor

/-- The same backend but for the channels of the streams. -/
structure SameButChannels (m m' : Mem) : Prop where
  jobs : m'.jobs = m.jobs
  allocated : m'.allocated = m.allocated
  paused : m'.paused = m.paused

theorem SameButChannels.rfl' {m : Mem} : SameButChannels m m := ⟨rfl, rfl, rfl⟩

theorem SameButChannels.symm {m m' : Mem} (h : SameButChannels m m') : SameButChannels m' m := ⟨h.1.symm, h.2.symm, h.3.symm⟩

theorem SameButChannels.trans {m m' m'' : Mem} (h : SameButChannels m m') (h' : SameButChannels m' m'') : SameButChannels m m'' :=
  ⟨h'.1.trans h.1, h'.2.trans h.2, h'.3.trans h.3⟩

private theorem same_notify_left (m : Mem) (x : String) (t : Time) : SameButChannels m (m.notify x t) := by
  simp only [Mem.notify]
  split <;> exact ⟨rfl, rfl, rfl⟩

private theorem same_notify {m m' : Mem} (h : SameButChannels m m') (x y : String) (t u : Time) : SameButChannels (m.notify x t) (m'.notify y u) :=
  (same_notify_left m x t).symm.trans (h.trans (same_notify_left m' y u))

private theorem same_onJob {m m' : Mem} (h : SameButChannels m m') (id : Int) (f : Job → Job) (w : Bool) :
    (m'.onJob id f w).1 = (m.onJob id f w).1 ∧ SameButChannels (m.onJob id f w).2 (m'.onJob id f w).2 := by
  simp only [Mem.onJob, h.jobs]
  cases updateById id f m.jobs with
  | none => exact ⟨rfl, h⟩
  | some z =>
    refine ⟨rfl, ?_⟩
    have : SameButChannels { m with jobs := z.1 } { m' with jobs := z.1 } := ⟨rfl, h.2, h.3⟩
    cases w with
    | false => exact this
    | true => exact same_notify this _ _ _ _

theorem same_load {m m' : Mem} (h : SameButChannels m m') (now : Time) (x : String) :
    (m'.load now x).1 = (m.load now x).1 ∧ SameButChannels (m.load now x).2 (m'.load now x).2 := by
  simp only [Mem.load, h.jobs]
  cases sortBy (fun a b => dueBefore a.1.job b.1.job) (m.jobs.zipIdx.filter fun (k, _) => readyFor now x k.job) with
  | nil => exact ⟨rfl, h⟩
  | cons z _ => exact ⟨rfl, rfl, h.2, h.3⟩

/-- No call depends on the channels. -/
theorem same_step {m m' : Mem} (h : SameButChannels m m') (now : Time) (o : Op) :
    (m'.step now o).1 = (m.step now o).1 ∧ SameButChannels (m.step now o).2 (m'.step now o).2 := by
  cases o with
  | complete id => exact same_onJob h ..
  | retryable id next e => exact same_onJob h ..
  | discarded id e => exact same_onJob h ..
  | cancelled id e => exact same_onJob h ..
  | snoozed id next => exact same_onJob h ..
  | rerun id => exact same_onJob h ..
  | update job => exact same_onJob h ..
  | prune spec =>
    refine ⟨rfl, ?_⟩
    simp only [Mem.step, Mem.prune]
    cases spec.pruneBy <;> exact ⟨by rw [h.jobs], h.2, h.3⟩
  | query q => exact ⟨by simp only [Mem.step, Mem.query, h.jobs], h⟩
  | load x =>
    obtain ⟨h1, h2⟩ := same_load h now x
    exact ⟨by simp only [Mem.step, h1], h2⟩
  | subscribe x => exact ⟨rfl, h.1, h.2, h.3⟩
  | notifyAll => exact ⟨rfl, h.1, h.2, h.3⟩

/-- The same backend and enqueue calls but for the channels. -/
structure SameConcBut (c c' : Conc) : Prop where
  mem : SameButChannels c.mem c'.mem
  calls : c'.calls = c.calls

private theorem same_advance {m m' : Mem} (h : SameButChannels m m') (now : Time) (p : Pending) :
    (m'.advance now p).1 = (m.advance now p).1 ∧ (m'.advance now p).2.1 = (m.advance now p).2.1 ∧
      SameButChannels (m.advance now p).2.2 (m'.advance now p).2.2 := by
  cases p with
  | start e =>
    simp only [Mem.advance, h.jobs, h.allocated]
    cases e.criteria with
    | none => exact ⟨rfl, rfl, rfl, rfl, h.3⟩
    | some uc =>
      cases m.jobs.filter fun k => e.matches now k with
      | nil => exact ⟨rfl, rfl, h⟩
      | cons k ks => exact ⟨rfl, rfl, h⟩
  | noMatch e =>
    simp only [Mem.advance, h.allocated]
    exact ⟨trivial, trivial, h.1, rfl, h.3⟩
  | allocated id e => exact ⟨rfl, rfl, by simp only [Mem.advance, h.jobs], h.2, h.3⟩
  | pushed id e => exact ⟨rfl, rfl, same_notify h _ _ _ _⟩
  | matched job =>
    obtain ⟨h1, h2⟩ := same_onJob h job.id (fun _ => job) true
    simp only [Mem.advance, Mem.update]
    generalize m.onJob job.id (fun _ => job) true = z at *
    generalize m'.onJob job.id (fun _ => job) true = z' at *
    obtain ⟨r, n⟩ := z
    obtain ⟨r', n'⟩ := z'
    simp only at h1 h2
    subst h1
    cases r' <;> exact ⟨rfl, rfl, h2⟩
  | done r => exact ⟨rfl, rfl, h⟩

theorem same_conc {c c' : Conc} (h : SameConcBut c c') (now : Time) (a : Act) :
    (c'.step now a).1 = (c.step now a).1 ∧ SameConcBut (c.step now a).2 (c'.step now a).2 := by
  cases a with
  | start e => exact ⟨rfl, h.mem, by simp only [Conc.step, h.calls]⟩
  | advance i =>
    simp only [Conc.step, h.calls]
    cases c.calls[i]? with
    | none => exact ⟨rfl, h⟩
    | some p =>
      obtain ⟨h1, h2, h3⟩ := same_advance h.mem now p
      exact ⟨h1, h3, by simp only [h2]⟩
  | op o =>
    obtain ⟨h1, h2⟩ := same_step h.mem now o
    exact ⟨by simp only [Conc.step, h1], h2, h.calls⟩

/-- What an event is for somebody who does not see how the runners wait: the calls of clients, the jobs
the runners take, the ends of executions and the reports. -/
def LvEv.visible (defs : List Runner) : LvEv → Option SEv
  | .client ev => some (.client ev)
  | .moved r (.returned _ j) (some st) =>
    match defs[r]? with
    | some d => some (.pulled r (.op (.load d.name) (.job (some j))) (some st))
    | none => none
  | .ended r t j o => some (.ended r t j o)
  | .reported r t ev => some (.reported r t ev)
  | _ => none

/-- The two systems agree. A runner of `Live` that has noticed a shutdown is one of `Sys` that is not
asked to take a job any more. -/
structure LiveSim (defs : List Runner) (s : Live) (t : Sys) : Prop where
  conc : SameConcBut s.streams.conc t.conc
  runners : ∀ (r : Nat) (q : LiveRunner), s.runners[r]? = some q → ∃ rs : RunnerState, t.runners[r]? = some rs ∧
    rs.flights = q.state.flights ∧ (q.state.polling = true → rs.polling = true)
  polls : ∀ (r : Nat) (q : LiveRunner) (d : Runner), s.runners[r]? = some q → defs[r]? = some d → q.inPoll = true →
    q.state.polling = true ∧ belowLimit d.maxConcurrency q.state.flights.length = true
  bound : ∀ (r : Nat) (q : LiveRunner) (n : Nat), s.runners[r]? = some q → q.stream = some n → n < s.streams.readers.length
  names : ∀ (r n : Nat) (q : LiveRunner) (d : Runner) (rd : Reader), s.runners[r]? = some q → defs[r]? = some d →
    q.stream = some n → s.streams.readers[n]? = some rd → rd.executor = d.name

theorem liveSim_init (defs : List Runner) (paused : Bool) : LiveSim defs (Live.init defs paused) (Sys.init defs paused) where
  conc := ⟨.rfl', rfl⟩
  runners := by
    intro r q h
    simp only [Live.init, List.getElem?_map] at h
    simp only [Sys.init, List.getElem?_map]
    cases hd : defs[r]? with
    | none => rw [hd] at h; cases h
    | some d => rw [hd] at h; cases h; exact ⟨_, rfl, rfl, id⟩
  polls := by
    intro r q d h _ hi
    simp only [Live.init, List.getElem?_map] at h
    cases hd : defs[r]? with
    | none => rw [hd] at h; cases h
    | some d => rw [hd] at h; cases h; cases hi
  bound := by
    intro r q n h hs
    simp only [Live.init, List.getElem?_map] at h
    cases hd : defs[r]? with
    | none => rw [hd] at h; cases h
    | some d => rw [hd] at h; cases h; cases hs
  names := by
    intro r n q d rd h _ hs
    simp only [Live.init, List.getElem?_map] at h
    cases hd : defs[r]? with
    | none => rw [hd] at h; cases h
    | some d => rw [hd] at h; cases h; cases hs

private theorem sim_set {l : List LiveRunner} {x r : Nat} {p q : LiveRunner} (h : (l.set x p)[r]? = some q) :
    (r = x ∧ q = p ∧ ∃ q₀, l[x]? = some q₀) ∨ (r ≠ x ∧ l[r]? = some q) := by
  rw [List.getElem?_set] at h
  by_cases e : x = r
  · subst e
    rw [if_pos rfl] at h
    by_cases hl : x < l.length
    · rw [if_pos hl] at h
      cases h
      exact .inl ⟨rfl, rfl, l[x], List.getElem?_eq_getElem hl⟩
    · rw [if_neg hl] at h; cases h
  · rw [if_neg e] at h
    exact .inr ⟨fun h' => e h'.symm, h⟩

/-- One runner changed, and with it the one of `Sys`. -/
private theorem sim_update {defs : List Runner} {s s' : Live} {t t' : Sys} {x : Nat} {q p : LiveRunner} {rs' : RunnerState}
    (S : LiveSim defs s t) (hq : s.runners[x]? = some q) (hr : s'.runners = s.runners.set x p) (hc : SameConcBut s'.streams.conc t'.conc)
    (hrs : t'.runners = t.runners.set x rs') (hf : rs'.flights = p.state.flights) (hp : p.state.polling = true → rs'.polling = true)
    (hpoll : ∀ d, defs[x]? = some d → p.inPoll = true → p.state.polling = true ∧ belowLimit d.maxConcurrency p.state.flights.length = true)
    (hrd : ∀ n : Nat, s'.streams.readers[n]?.map Reader.executor = s.streams.readers[n]?.map Reader.executor) (hst : p.stream = q.stream) :
    LiveSim defs s' t' := by
  obtain ⟨rs, hrs0, -, -⟩ := S.runners x q hq
  have hlen : s'.streams.readers.length = s.streams.readers.length := by
    rcases Nat.lt_trichotomy s'.streams.readers.length s.streams.readers.length with h | h | h
    · have := hrd s'.streams.readers.length
      simp [List.getElem?_eq_none (Nat.le_refl _), List.getElem?_eq_getElem h] at this
    · exact h
    · have := hrd s.streams.readers.length
      simp [List.getElem?_eq_none (Nat.le_refl s.streams.readers.length), List.getElem?_eq_getElem h] at this
  refine ⟨hc, ?_, ?_, ?_, ?_⟩
  · intro r q' h
    rw [hr] at h
    rw [hrs]
    rcases sim_set h with ⟨rfl, rfl, -⟩ | ⟨hne, h⟩
    · exact ⟨rs', List.getElem?_set_self (List.getElem?_eq_some_iff.mp hrs0).1, hf, hp⟩
    · rw [List.getElem?_set_ne (fun e => hne e.symm)]
      exact S.runners r q' h
  · intro r q' d h hd hi
    rw [hr] at h
    rcases sim_set h with ⟨rfl, rfl, -⟩ | ⟨hne, h⟩
    · exact hpoll d hd hi
    · exact S.polls r q' d h hd hi
  · intro r q' n h hs
    rw [hlen]
    rw [hr] at h
    rcases sim_set h with ⟨rfl, rfl, -⟩ | ⟨hne, h⟩
    · exact S.bound r q n hq (hst ▸ hs)
    · exact S.bound r q' n h hs
  · intro r n q' d rd h hd hs hrd'
    rw [hr] at h
    have hn := hrd n
    rw [hrd'] at hn
    cases hrd0 : s.streams.readers[n]? with
    | none => rw [hrd0] at hn; cases hn
    | some rd0 =>
      rw [hrd0] at hn
      have hn : rd.executor = rd0.executor := by simpa using hn
      rw [hn]
      rcases sim_set h with ⟨rfl, rfl, -⟩ | ⟨hne, h⟩
      · exact S.names r n q d rd0 hq hd (hst ▸ hs) hrd0
      · exact S.names r n q' d rd0 h hd hs hrd0

/-- One runner changed, in a way `Sys` does not see. -/
private theorem sim_silent {defs : List Runner} {s s' : Live} {t : Sys} {x : Nat} {q p : LiveRunner}
    (S : LiveSim defs s t) (hq : s.runners[x]? = some q) (hr : s'.runners = s.runners.set x p) (hc : SameConcBut s'.streams.conc t.conc)
    (hf : p.state.flights = q.state.flights) (hp : p.state.polling = true → q.state.polling = true)
    (hpoll : ∀ d, defs[x]? = some d → p.inPoll = true → p.state.polling = true ∧ belowLimit d.maxConcurrency p.state.flights.length = true)
    (hrd : ∀ n : Nat, s'.streams.readers[n]?.map Reader.executor = s.streams.readers[n]?.map Reader.executor) (hst : p.stream = q.stream) :
    LiveSim defs s' t := by
  obtain ⟨rs, h1, h2, h3⟩ := S.runners x q hq
  refine sim_update S hq hr hc (rs' := rs) ?_ (h2.trans hf.symm) (fun h => h3 (hp h)) hpoll hrd hst
  obtain ⟨hl, rfl⟩ := List.getElem?_eq_some_iff.mp h1
  exact (List.set_getElem_self hl).symm

private theorem sim_same {defs : List Runner} {s s' : Live} {t t' : Sys} (S : LiveSim defs s t)
    (hr : s'.runners = s.runners) (hc : SameConcBut s'.streams.conc t'.conc) (ht : t'.runners = t.runners)
    (hrd : ∀ n : Nat, s'.streams.readers[n]?.map Reader.executor = s.streams.readers[n]?.map Reader.executor) : LiveSim defs s' t' := by
  have hlen : s'.streams.readers.length = s.streams.readers.length := by
    rcases Nat.lt_trichotomy s'.streams.readers.length s.streams.readers.length with h | h | h
    · have := hrd s'.streams.readers.length
      simp [List.getElem?_eq_none (Nat.le_refl _), List.getElem?_eq_getElem h] at this
    · exact h
    · have := hrd s.streams.readers.length
      simp [List.getElem?_eq_none (Nat.le_refl s.streams.readers.length), List.getElem?_eq_getElem h] at this
  refine ⟨hc, by rw [hr, ht]; exact S.runners, by rw [hr]; exact S.polls, by rw [hr, hlen]; exact S.bound, ?_⟩
  intro r n q' d rd h hd hs hrd'
  rw [hr] at h
  have hn := hrd n
  rw [hrd'] at hn
  cases hrd0 : s.streams.readers[n]? with
  | none => rw [hrd0] at hn; cases hn
  | some rd0 =>
    rw [hrd0] at hn
    have hn : rd.executor = rd0.executor := by simpa using hn
    rw [hn]
    exact S.names r n q' d rd0 h hd hs hrd0

private theorem setWait_names (s : Streams) (i n : Nat) (w : Wait) :
    (s.setWait i w).readers[n]?.map Reader.executor = s.readers[n]?.map Reader.executor := by
  simp only [Streams.setWait, List.getElem?_modify]
  cases s.readers[n]? with
  | none => rfl
  | some r => simp only [Option.map_some]; split <;> rfl

/-- A step of a stream that returns no job does nothing `Sys` sees. -/
private theorem stream_silent {now : Time} {s : Streams} {n : Nat} {b : Bool} {ev : StEv} {s' : Streams}
    (h : s.step now (.stream n b) = (ev, s')) (hne : ∀ i j, ev ≠ .returned i j) :
    SameConcBut s'.conc s.conc ∧ ∀ k : Nat, s'.readers[k]?.map Reader.executor = s.readers[k]?.map Reader.executor := by
  simp only [Streams.step] at h
  cases hr : s.readers[n]? with
  | none => rw [hr] at h; cases h; exact ⟨⟨.rfl', rfl⟩, fun _ => rfl⟩
  | some r =>
    rw [hr] at h
    simp only [Streams.streamStep] at h
    cases hw : r.wait with
    | ready => rw [hw] at h; cases h; exact ⟨⟨.rfl', rfl⟩, fun k => setWait_names _ _ k _⟩
    | looked f => rw [hw] at h; cases h; exact ⟨⟨.rfl', rfl⟩, fun k => setWait_names _ _ k _⟩
    | decided c dl =>
      rw [hw] at h
      simp only at h
      by_cases hd : dl ≤ pollDelta
      · rw [if_pos hd] at h
        cases hl : s.conc.mem.load now r.executor with
        | mk jo m =>
          rw [hl] at h
          cases jo with
          | none => cases h; exact ⟨⟨.rfl', rfl⟩, fun k => setWait_names _ _ k _⟩
          | some j => cases h; exact absurd rfl (hne _ _)
      · rw [if_neg hd] at h
        cases h; exact ⟨⟨.rfl', rfl⟩, fun k => setWait_names _ _ k _⟩
    | asleep c since dl =>
      rw [hw] at h
      simp only at h
      split at h
      · cases h
        exact ⟨⟨⟨rfl, rfl, rfl⟩, rfl⟩, fun k => setWait_names _ _ k _⟩
      · split at h
        · cases h; exact ⟨⟨.rfl', rfl⟩, fun k => setWait_names _ _ k _⟩
        · cases h; exact ⟨⟨.rfl', rfl⟩, fun _ => rfl⟩

/-- A step of a stream that returns a job is a request for one. -/
private theorem stream_returns {now : Time} {s : Streams} {n i : Nat} {b : Bool} {j : Job} {s' : Streams}
    (h : s.step now (.stream n b) = (.returned i j, s')) :
    ∃ r, s.readers[n]? = some r ∧ (s.conc.mem.load now r.executor).1 = some j ∧ s'.conc.calls = s.conc.calls ∧
      s'.conc.mem = (s.conc.mem.load now r.executor).2 ∧
      ∀ k : Nat, s'.readers[k]?.map Reader.executor = s.readers[k]?.map Reader.executor := by
  simp only [Streams.step] at h
  cases hr : s.readers[n]? with
  | none => rw [hr] at h; cases h
  | some r =>
    rw [hr] at h
    simp only [Streams.streamStep] at h
    cases hw : r.wait with
    | ready => rw [hw] at h; cases h
    | looked f => rw [hw] at h; cases h
    | decided c dl =>
      rw [hw] at h
      simp only at h
      by_cases hd : dl ≤ pollDelta
      · rw [if_pos hd] at h
        cases hl : s.conc.mem.load now r.executor with
        | mk jo m =>
          rw [hl] at h
          cases jo with
          | none => cases h
          | some j' => cases h; exact ⟨r, rfl, by rw [hl], rfl, by rw [hl]; rfl, fun k => setWait_names _ _ k _⟩
      · rw [if_neg hd] at h
        cases h
    | asleep c since dl =>
      rw [hw] at h
      simp only at h
      split at h
      · cases h
      · split at h <;> cases h

/-- What `Sys` does for one action: nothing, or one action with the same event. -/
def SimStep (defs : List Runner) (now : Time) (t : Sys) (v : Option SEv) (t' : Sys) : Prop :=
  (v = none ∧ t' = t) ∨ ∃ a, v = some (t.step defs now a).1 ∧ t' = (t.step defs now a).2

theorem liveSim_act {defs : List Runner} {s : Live} {t : Sys} (S : LiveSim defs s t) (now : Time) (a : LvAct) :
    ∃ t', SimStep defs now t ((s.act defs now a).1.visible defs) t' ∧ LiveSim defs (s.act defs now a).2 t' := by
  have stay : ∃ t', SimStep defs now t (LvEv.nothing.visible defs) t' ∧ LiveSim defs s t' := ⟨t, .inl ⟨rfl, rfl⟩, S⟩
  cases a with
  | client a =>
    obtain ⟨h1, h2⟩ := same_conc S.conc now a
    refine ⟨(t.step defs now (.client a)).2, .inr ⟨.client a, ?_, rfl⟩, ?_⟩
    · simp only [Live.act, LvEv.visible, Sys.step, h1]
    · exact sim_same S rfl h2 rfl fun _ => rfl
  | shutdown => exact ⟨t, .inl ⟨rfl, rfl⟩, sim_same S rfl S.conc rfl fun _ => rfl⟩
  | begin x =>
    cases hd : defs[x]? with
    | none => simp only [Live.act, hd]; exact stay
    | some d =>
      cases hq : s.runners[x]? with
      | none => simp only [Live.act, hd, hq]; exact stay
      | some q =>
        obtain ⟨st, ip, rs⟩ := q
        cases st with
        | some y => simp only [Live.act, hd, hq]; exact stay
        | none =>
          simp only [Live.act, hd, hq]
          refine ⟨t, .inl ⟨rfl, rfl⟩, ?_⟩
          obtain ⟨rs0, h1, h2, h3⟩ := S.runners x _ hq
          refine ⟨⟨⟨S.conc.mem.1, S.conc.mem.2, S.conc.mem.3⟩, S.conc.calls⟩, ?_, ?_, ?_, ?_⟩
          · intro r q' h
            rcases sim_set h with ⟨rfl, rfl, -⟩ | ⟨hne, h⟩
            · exact ⟨rs0, h1, h2, h3⟩
            · exact S.runners r q' h
          · intro r q' d' h hd' hi
            rcases sim_set h with ⟨rfl, rfl, -⟩ | ⟨hne, h⟩
            · exact S.polls r { stream := none, inPoll := ip, state := rs } d' hq hd' hi
            · exact S.polls r q' d' h hd' hi
          · intro r q' n h hs
            simp only [Streams.step, List.length_append, List.length_cons, List.length_nil]
            rcases sim_set h with ⟨rfl, rfl, -⟩ | ⟨hne, h⟩
            · cases hs; omega
            · have := S.bound r q' n h hs; omega
          · intro r n q' d' rd h hd' hs hrd
            simp only [Streams.step] at hrd
            rcases sim_set h with ⟨rfl, rfl, -⟩ | ⟨hne, h⟩
            · cases hs
              rw [hd] at hd'
              cases hd'
              simp at hrd
              rw [← hrd]
            · rw [List.getElem?_append_left (S.bound r q' n h hs)] at hrd
              exact S.names r n q' d' rd h hd' hs hrd
  | poll x =>
    cases hd : defs[x]? with
    | none => simp only [Live.act, hd]; exact stay
    | some d =>
      cases hq : s.runners[x]? with
      | none => simp only [Live.act, hd, hq]; exact stay
      | some q =>
        obtain ⟨st, ip, rs⟩ := q
        cases st with
        | none => simp only [Live.act, hd, hq]; exact stay
        | some y =>
          cases ip with
          | true => simp only [Live.act, hd, hq]; exact stay
          | false =>
            simp only [Live.act, hd, hq]
            by_cases hb : (rs.polling && belowLimit d.maxConcurrency rs.flights.length) = true
            · rw [if_pos hb]
              cases hc : s.cancelled with
              | true =>
                exact ⟨t, .inl ⟨rfl, rfl⟩, sim_silent S hq rfl S.conc rfl nofun nofun (fun _ => rfl) rfl⟩
              | false =>
                refine ⟨t, .inl ⟨rfl, rfl⟩, sim_silent S hq rfl S.conc rfl id ?_ (fun _ => rfl) rfl⟩
                intro d' hd' _
                rw [hd] at hd'
                cases hd'
                simpa [Bool.and_eq_true] using hb
            · rw [if_neg hb]; exact stay
  | step x b =>
    cases hd : defs[x]? with
    | none => simp only [Live.act, hd]; exact stay
    | some d =>
      cases hq : s.runners[x]? with
      | none => simp only [Live.act, hd, hq]; exact stay
      | some q =>
        obtain ⟨st, ip, rs⟩ := q
        cases st with
        | none => simp only [Live.act, hd, hq]; exact stay
        | some y =>
          cases ip with
          | false => simp only [Live.act, hd, hq]; exact stay
          | true =>
            simp only [Live.act, hd, hq]
            cases hz : s.streams.step now (.stream y b) with
            | mk ev st' =>
              have silent : (∀ i j, ev ≠ .returned i j) → ∃ t', SimStep defs now t none t' ∧
                  LiveSim defs { s with streams := st' } t' := by
                intro hne
                obtain ⟨h1, h2⟩ := stream_silent hz hne
                refine ⟨t, .inl ⟨rfl, rfl⟩, sim_same S rfl ⟨h1.mem.trans S.conc.mem, S.conc.calls.trans h1.calls⟩ rfl h2⟩
              cases ev with
              | returned i j =>
                obtain ⟨rd, h1, h2, h3, h4, h5⟩ := stream_returns hz
                have hx := S.names x y _ d rd hq hd rfl h1
                obtain ⟨rs0, g1, g2, g3⟩ := S.runners x _ hq
                obtain ⟨g4, g5⟩ := S.polls x _ d hq hd rfl
                obtain ⟨l1, l2⟩ := same_load S.conc.mem now d.name
                rw [hx] at h2 h4
                rw [h2] at l1
                rw [← h4] at l2
                have hlim : (rs0.polling && belowLimit d.maxConcurrency rs0.flights.length) = true := by
                  rw [g2, g3 g4, g5]; rfl
                have hstep : t.step defs now (.pull x) =
                    (.pulled x (.op (.load d.name) (.job (some j))) (some (d.start j)),
                      { conc := (t.conc.step now (.op (.load d.name))).2,
                        runners := t.runners.set x (match d.start j with
                          | .running t => { rs0 with flights := rs0.flights ++ [{ task := t }] }
                          | .undecodable => rs0
                          | .runnerPanics => rs0.crash) }) := by
                  simp only [Sys.step, hd, g1, hlim, if_true, Conc.step, Mem.step, l1]
                  cases d.start j <;> rfl
                refine ⟨(t.step defs now (.pull x)).2, .inr ⟨.pull x, ?_, rfl⟩, ?_⟩
                · rw [hstep]; simp only [LvEv.visible, hd]
                · rw [hstep]
                  refine sim_update S hq rfl ⟨l2, ?_⟩ rfl ?_ ?_ ?_ h5 ?_
                  · simp only [Conc.step]
                    exact S.conc.calls.trans h3.symm
                  · simp only [LiveRunner.take]
                    cases d.start j
                    · simp only [g2]
                    · exact g2
                    · rfl
                  · simp only [LiveRunner.take]
                    cases d.start j
                    · exact g3
                    · exact g3
                    · exact id
                  · intro d' _ hi
                    exfalso
                    simp only [LiveRunner.take] at hi
                    cases hs : d.start j <;> rw [hs] at hi <;> cases hi
                  · simp only [LiveRunner.take]
                    cases d.start j <;> rfl
              | nothing =>
                obtain ⟨h1, h2⟩ := stream_silent hz (by simp)
                exact ⟨t, .inl ⟨rfl, rfl⟩, sim_silent S hq rfl S.conc rfl id nofun (fun _ => rfl) rfl⟩
              | client e => exact silent (by simp)
              | subscribed => exact silent (by simp)
              | looked n f => exact silent (by simp)
              | decided n dl => exact silent (by simp)
              | slept n => exact silent (by simp)
              | received n => exact silent (by simp)
              | timedOut n => exact silent (by simp)
  | finish x y b =>
    cases hd : defs[x]? with
    | none => simp only [Live.act, hd]; exact stay
    | some d =>
      cases hq : s.runners[x]? with
      | none => simp only [Live.act, hd, hq]; exact stay
      | some q =>
        obtain ⟨st, ip, rs⟩ := q
        cases ip with
        | true => simp only [Live.act, hd, hq]; exact stay
        | false =>
          obtain ⟨rs0, g1, g2, g3⟩ := S.runners x _ hq
          simp only at g2 g3
          simp only [Live.act, hd, hq]
          cases hf : rs.flights[y]? with
          | none => exact stay
          | some fl =>
            obtain ⟨tk, ph⟩ := fl
            cases ph with
            | reporting o => exact stay
            | running =>
              simp only
              cases hj : tk.join b with
              | none => exact stay
              | some j =>
                simp only
                cases ho : d.report now tk j with
                | none =>
                  have hstep : t.step defs now (.finish x y b) =
                      (.ended x tk j none, { t with runners := t.runners.set x rs0.crash }) := by
                    simp only [Sys.step, hd, g1, g2, hf, hj, ho]
                  refine ⟨(t.step defs now (.finish x y b)).2, .inr ⟨.finish x y b, by rw [hstep]; rfl, rfl⟩, ?_⟩
                  rw [hstep]
                  exact sim_update S hq rfl S.conc rfl rfl (fun h => h) nofun (fun _ => rfl) rfl
                | some o =>
                  have hstep : t.step defs now (.finish x y b) =
                      (.ended x tk j (some o),
                        { t with runners := t.runners.set x { rs0 with flights := rs0.flights.set y { task := tk, phase := .reporting o } } }) := by
                    simp only [Sys.step, hd, g1, g2, hf, hj, ho]
                  refine ⟨(t.step defs now (.finish x y b)).2, .inr ⟨.finish x y b, by rw [hstep]; rfl, rfl⟩, ?_⟩
                  rw [hstep]
                  exact sim_update S hq rfl S.conc rfl (by simp only [g2]) g3 nofun (fun _ => rfl) rfl
  | report x y =>
    cases hq : s.runners[x]? with
    | none => simp only [Live.act, hq]; exact stay
    | some q =>
      obtain ⟨st, ip, rs⟩ := q
      cases ip with
      | true => simp only [Live.act, hq]; exact stay
      | false =>
        obtain ⟨rs0, g1, g2, g3⟩ := S.runners x _ hq
        simp only at g2 g3
        simp only [Live.act, hq]
        cases hf : rs.flights[y]? with
        | none => exact stay
        | some fl =>
          obtain ⟨tk, ph⟩ := fl
          cases ph with
          | running => exact stay
          | reporting o =>
            simp only
            obtain ⟨h1, h2⟩ := same_conc S.conc now (.op o)
            have hstep : t.step defs now (.report x y) =
                (.reported x tk (t.conc.step now (.op o)).1,
                  { conc := (t.conc.step now (.op o)).2, runners := t.runners.set x { rs0 with flights := rs0.flights.eraseIdx y } }) := by
              simp only [Sys.step, g1, g2, hf]
            refine ⟨(t.step defs now (.report x y)).2, .inr ⟨.report x y, ?_, rfl⟩, ?_⟩
            · rw [hstep]; simp only [LvEv.visible, h1]
            · rw [hstep]
              exact sim_update S hq rfl h2 rfl (by simp only [g2]) g3 nofun (fun _ => rfl) rfl

/-- Every schedule of runners with streams is one without. -/
theorem live_refines (defs : List Runner) {s : Live} {t : Sys} (S : LiveSim defs s t) (as : List TLvAct) :
    ∃ bs : List TSAct,
      t.trace defs bs = (s.trace defs as).filterMap (fun e => (e.ev.visible defs).map fun v => ⟨e.now, v⟩) ∧
      LiveSim defs (s.run defs as) (t.run defs bs) := by
  induction as generalizing s t with
  | nil => exact ⟨[], rfl, S⟩
  | cons a as ih =>
    obtain ⟨t', h, S'⟩ := liveSim_act S a.now a.act
    obtain ⟨bs, g1, g2⟩ := ih S'
    rcases h with ⟨hv, rfl⟩ | ⟨b, hv, rfl⟩
    · exact ⟨bs, by simp [Live.trace, hv, g1], g2⟩
    · exact ⟨⟨a.now, b⟩ :: bs, by simp [Live.trace, Sys.trace, hv, g1], g2⟩

end Rexecutor
