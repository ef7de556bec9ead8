import Verif.Lemmas.Stream
import Verif.Spec.Samples

/-! # C30, C31: streams miss no job; paused backends -/

namespace Rexecutor

/-! ## The invariant -/

/-- What the stream will do covers a job scheduled for `t`: the delay it decides on, or
has decided on, ends by then or is at most `DELTA`. -/
def Wait.covers (t : Time) : Wait → Prop
  | .ready => True
  | .looked none => False
  | .looked (some f) => f ≤ t
  | .decided clock delay => delay ≤ t - clock ∨ delay ≤ pollDelta
  | .asleep clock _ delay => delay ≤ t - clock ∨ delay ≤ pollDelta

def Wait.sane : Wait → Prop
  | .decided _ delay => 0 ≤ delay ∧ delay ≤ defaultDelay
  | .asleep _ _ delay => 0 ≤ delay ∧ delay ≤ defaultDelay
  | _ => True

structure StreamInv (s : Streams) : Prop where
  bound : ∀ r ∈ s.readers, ∃ sb, s.conc.mem.subs[r.sub]? = some sb ∧ sb.executor = r.executor
  distinct : (s.readers.map (·.sub)).Nodup
  sane : ∀ r ∈ s.readers, r.wait.sane
  covers : s.conc.mem.paused = false → ∀ r ∈ s.readers, ∀ sb, s.conc.mem.subs[r.sub]? = some sb →
    sb.queue = [] → ∀ k ∈ s.conc.mem.jobs, k.job.available → k.job.executor = r.executor →
    ¬ s.conc.enqueuing k.job → r.wait.covers k.job.scheduledAt

private theorem streamDelay_sane (now : Time) (f : Option Time) :
    0 ≤ streamDelay now f ∧ streamDelay now f ≤ defaultDelay := by
  cases f with
  | none => simp [streamDelay, defaultDelay, sec]
  | some t =>
    simp only [streamDelay, defaultDelay, pollDelta, sec, ms, Time, Delta] at *
    split <;> omega

private theorem streamDelay_covers {now t : Time} {f : Option Time} (h : (Wait.looked f).covers t) :
    (Wait.decided now (streamDelay now f)).covers t := by
  cases f with
  | none => exact h.elim
  | some f =>
    simp only [Wait.covers, streamDelay, defaultDelay, pollDelta, sec, ms, Time, Delta] at *
    split <;> omega

theorem nextAvailable_covers {x : String} {m : Mem} {k : KeyedJob} (hk : k ∈ m.jobs)
    (ha : k.job.available) (hx : k.job.executor = x) :
    (Wait.looked (m.nextAvailable x)).covers k.job.scheduledAt := by
  have hm : k.job.scheduledAt ∈ ((m.jobs.filter fun k =>
      (Query.and [.executorEqual x, .or [.statusEqual .scheduled, .statusEqual .retryable]]).matches k.job).map
      fun k => k.job.scheduledAt) := by
    refine List.mem_map_of_mem (List.mem_filter.mpr ⟨hk, ?_⟩)
    rcases ha with ha | ha <;> simp [Query.matches, Query.matchesAll, Query.matchesAny, ha, hx]
  unfold Mem.nextAvailable
  simp only
  cases h : ((m.jobs.filter fun k =>
      (Query.and [.executorEqual x, .or [.statusEqual .scheduled, .statusEqual .retryable]]).matches k.job).map
      fun k => k.job.scheduledAt).min? with
  | none => rw [List.min?_eq_none_iff] at h; rw [h] at hm; simp at hm
  | some f => exact (List.le_min?_iff h).mp (Int.le_refl f) _ hm

private theorem setWait_mem {s : Streams} {i : Nat} {w : Wait} {r : Reader} (hr : s.readers[i]? = some r)
    {r' : Reader} (h : r' ∈ (s.setWait i w).readers) :
    r' = { r with wait := w } ∨ (r' ∈ s.readers ∧ ∃ j, j ≠ i ∧ s.readers[j]? = some r') := by
  obtain ⟨n, hn⟩ := List.mem_iff_getElem?.mp h
  simp only [Streams.setWait, List.getElem?_modify] at hn
  by_cases hi : i = n
  · subst hi
    rw [hr] at hn
    left
    simpa using hn.symm
  · right
    cases hq : s.readers[n]? with
    | none => rw [hq] at hn; simp at hn
    | some q =>
      rw [hq] at hn
      simp only [hi, if_false, Option.map_eq_map, Option.map_some, Option.some.injEq] at hn
      subst hn
      exact ⟨List.mem_of_getElem? hq, n, Ne.symm hi, hq⟩

private theorem setWait_subs (s : Streams) (i : Nat) (w : Wait) :
    (s.setWait i w).readers.map (·.sub) = s.readers.map (·.sub) := by
  refine List.ext_getElem? fun n => ?_
  simp only [Streams.setWait, List.getElem?_map, List.getElem?_modify]
  cases s.readers[n]? with
  | none => simp
  | some r => by_cases h : i = n <;> simp [h]

theorem stream_sub_ne {s : Streams} (hd : (s.readers.map (·.sub)).Nodup) {i j : Nat} {r q : Reader}
    (hi : s.readers[i]? = some r) (hj : s.readers[j]? = some q) (hne : j ≠ i) : q.sub ≠ r.sub := by
  intro he
  have h1 : (s.readers.map (·.sub))[i]? = some r.sub := by simp [hi]
  have h2 : (s.readers.map (·.sub))[j]? = some r.sub := by simp [hj, he]
  have li := (List.getElem?_eq_some_iff.mp h1).1
  exact hne ((List.getElem?_inj li hd).mp (h1.trans h2.symm)).symm

/-- Changing only what one stream is doing. -/
private theorem inv_setWait {s : Streams} {i : Nat} {w : Wait} {r : Reader} (H : StreamInv s)
    (hr : s.readers[i]? = some r) (hs : w.sane)
    (hc : s.conc.mem.paused = false → ∀ sb, s.conc.mem.subs[r.sub]? = some sb → sb.queue = [] →
      ∀ k ∈ s.conc.mem.jobs, k.job.available → k.job.executor = r.executor →
      ¬ s.conc.enqueuing k.job → w.covers k.job.scheduledAt) : StreamInv (s.setWait i w) where
  bound r' hr' := by
    rcases setWait_mem hr hr' with rfl | ⟨h, -⟩
    · exact H.bound r (List.mem_of_getElem? hr)
    · exact H.bound r' h
  distinct := by rw [setWait_subs]; exact H.distinct
  sane r' hr' := by
    rcases setWait_mem hr hr' with rfl | ⟨h, -⟩
    · exact hs
    · exact H.sane r' h
  covers hp r' hr' sb hsb hq k hk ha hx he := by
    rcases setWait_mem hr hr' with rfl | ⟨h, -⟩
    · exact hc hp sb hsb hq k hk ha hx he
    · exact H.covers hp r' h sb hsb hq k hk ha hx he

/-- What others do. -/
private theorem inv_conc {s : Streams} {c : Conc} (H : StreamInv s) (hg : SubsGrow s.conc.mem c.mem)
    (ht : s.conc.mem.paused = false → ∀ k ∈ c.mem.jobs, k.job.available →
      (k ∈ s.conc.mem.jobs ∧ ¬ s.conc.enqueuing k.job) ∨ c.enqueuing k.job ∨
        Told s.conc.mem c.mem k.job) : StreamInv { s with conc := c } where
  bound r hr := by
    obtain ⟨sb, h1, h2⟩ := H.bound r hr
    obtain ⟨q, hq⟩ := hg.2 _ _ h1
    exact ⟨_, hq, h2⟩
  distinct := H.distinct
  sane := H.sane
  covers hp r hr sb hsb hq k hk ha hx he := by
    simp only at hp hsb hk he
    rw [hg.1] at hp
    obtain ⟨sb₀, h1, h2⟩ := H.bound r hr
    rcases ht hp k hk ha with ⟨hk₀, he₀⟩ | h | h
    · obtain ⟨q, hq'⟩ := hg.2 _ _ h1
      rw [hq'] at hsb
      simp only [Option.some.injEq] at hsb
      subst hsb
      simp only [List.append_eq_nil_iff] at hq
      exact H.covers hp r hr sb₀ h1 hq.1 k hk₀ ha hx he₀
    · exact absurd h he
    · obtain ⟨q, hne, hq'⟩ := h _ _ h1 (h2.trans hx.symm)
      rw [hq'] at hsb
      simp only [Option.some.injEq] at hsb
      subst hsb
      simp only [List.append_eq_nil_iff] at hq
      exact absurd hq.2 hne

theorem streamInv_step {s : Streams} (H : StreamInv s) (now : Time) (a : StAct) :
    StreamInv (s.step now a).2 := by
  cases a with
  | client a =>
    obtain ⟨h1, -, h3⟩ := client_subs now s.conc a
    exact inv_conc H h1 h3
  | subscribe x =>
    have hlen : ∀ r ∈ s.readers, r.sub < s.conc.mem.subs.length := fun r hr => by
      obtain ⟨sb, h, -⟩ := H.bound r hr
      exact (List.getElem?_eq_some_iff.mp h).1
    have hold : ∀ r ∈ s.readers, (s.conc.mem.subscribe x).subs[r.sub]? = s.conc.mem.subs[r.sub]? := by
      intro r hr
      simp only [Mem.subscribe]
      rw [List.getElem?_append_left (hlen r hr)]
    refine ⟨?_, ?_, ?_, ?_⟩
    · intro r hr
      simp only [Streams.step, List.mem_append, List.mem_singleton] at hr ⊢
      rcases hr with hr | rfl
      · rw [hold r hr]; exact H.bound r hr
      · exact ⟨{ executor := x }, by simp [Mem.subscribe], rfl⟩
    · simp only [Streams.step, List.map_append, List.map_cons, List.map_nil]
      rw [List.nodup_append]
      refine ⟨H.distinct, by simp, ?_⟩
      intro a ha b hb
      simp only [List.mem_singleton] at hb
      obtain ⟨r, hr, rfl⟩ := List.mem_map.mp ha
      have := hlen r hr
      omega
    · intro r hr
      simp only [Streams.step, List.mem_append, List.mem_singleton] at hr
      rcases hr with hr | rfl
      · exact H.sane r hr
      · trivial
    · intro hp r hr sb hsb hq k hk ha hx he
      simp only [Streams.step, List.mem_append, List.mem_singleton] at hr hsb hp hk he
      rcases hr with hr | rfl
      · rw [hold r hr] at hsb
        exact H.covers hp r hr sb hsb hq k hk ha hx he
      · trivial
  | stream i timer =>
    simp only [Streams.step]
    cases hr : s.readers[i]? with
    | none => exact H
    | some r =>
      have hm := List.mem_of_getElem? hr
      simp only [Streams.streamStep]
      cases hw : r.wait with
      | ready =>
        exact inv_setWait H hr trivial fun _ _ _ _ k hk ha hx _ => nextAvailable_covers hk ha hx
      | looked f =>
        refine inv_setWait H hr (streamDelay_sane now f) fun hp sb hsb hq k hk ha hx he => ?_
        have := H.covers hp r hm sb hsb hq k hk ha hx he
        rw [hw] at this
        exact streamDelay_covers this
      | decided clock delay =>
        have hsleep : StreamInv (s.setWait i (.asleep clock now delay)) := by
          refine inv_setWait H hr ?_ fun hp sb hsb hq k hk ha hx he => ?_
          · have := H.sane r hm; rw [hw] at this; exact this
          · have := H.covers hp r hm sb hsb hq k hk ha hx he
            rw [hw] at this; exact this
        simp only
        split
        · obtain ⟨l1, l2, l3⟩ := load_subs now r.executor s.conc.mem
          generalize s.conc.mem.load now r.executor = q at l1 l2 l3
          obtain ⟨j, m⟩ := q
          cases j with
          | none => exact hsleep
          | some j =>
            have H' : StreamInv (s.setMem m) := by
              refine inv_conc (c := { s.conc with mem := m }) H (.same l1 l2) fun _ k hk ha => ?_
              by_cases he : s.conc.enqueuing k.job
              · exact .inr (.inl he)
              · exact .inl ⟨l3 k hk ha, he⟩
            exact inv_setWait H' (r := r) hr trivial fun _ _ _ _ _ _ _ _ _ => trivial
        · exact hsleep
      | asleep clock since delay =>
        simp only
        split
        · -- a message is taken from this stream's own channel
          have hsubs : ∀ j q, j ≠ i → s.readers[j]? = some q →
              (s.conc.mem.receive r.sub).subs[q.sub]? = s.conc.mem.subs[q.sub]? := by
            intro j q hne hq
            have := stream_sub_ne H.distinct hr hq hne
            simp only [Mem.receive, List.getElem?_modify]
            simp [Ne.symm this]
          have hread : ∀ q ∈ ((s.setMem (s.conc.mem.receive r.sub)).setWait i .ready).readers,
              q = { r with wait := .ready } ∨ (q ∈ s.readers ∧
                (s.conc.mem.receive r.sub).subs[q.sub]? = s.conc.mem.subs[q.sub]?) := by
            intro q hq
            rcases setWait_mem (s := s.setMem (s.conc.mem.receive r.sub)) hr hq with h | ⟨h, j, hne, hj⟩
            · exact .inl h
            · exact .inr ⟨h, hsubs j q hne hj⟩
          refine ⟨?_, ?_, ?_, ?_⟩
          · intro q hq
            rcases hread q hq with rfl | ⟨h, he⟩
            · obtain ⟨sb, h1, h2⟩ := H.bound r hm
              exact ⟨{ sb with queue := sb.queue.tail },
                by simp [Streams.setWait, Streams.setMem, Mem.receive, h1], h2⟩
            · obtain ⟨sb, h1, h2⟩ := H.bound q h
              exact ⟨sb, he.trans h1, h2⟩
          · rw [setWait_subs]; exact H.distinct
          · intro q hq
            rcases hread q hq with rfl | ⟨h, -⟩
            · trivial
            · exact H.sane q h
          · intro hp q hq sb hsb hqe k hk ha hx he
            rcases hread q hq with rfl | ⟨h, heq⟩
            · trivial
            · exact H.covers hp q h sb (heq ▸ hsb) hqe k hk ha hx he
        · split
          · exact inv_setWait H hr trivial fun _ _ _ _ _ _ _ _ _ => trivial
          · exact H

theorem streamInv_run {s : Streams} (H : StreamInv s) (as : List TStAct) : StreamInv (s.run as) := by
  induction as generalizing s with
  | nil => exact H
  | cons a as ih => exact ih (streamInv_step H a.now a.act)

theorem streamInv_init (p : Bool) : StreamInv (Streams.init p) :=
  ⟨by simp [Streams.init], by simp [Streams.init], by simp [Streams.init], by simp [Streams.init, Mem.init]⟩

/-! ## C30 -/

private theorem step_paused (s : Streams) (t : Time) (a : StAct) :
    (s.step t a).2.conc.mem.paused = s.conc.mem.paused := by
  cases a with
  | client a => exact (client_subs t s.conc a).1.1
  | subscribe x => rfl
  | stream i timer =>
    simp only [Streams.step]
    cases hr : s.readers[i]? with
    | none => rfl
    | some r =>
      simp only [Streams.streamStep]
      cases r.wait with
      | ready => rfl
      | looked f => rfl
      | decided clock delay =>
        simp only
        split
        · obtain ⟨-, l2, -⟩ := load_subs t r.executor s.conc.mem
          generalize s.conc.mem.load t r.executor = q at l2
          obtain ⟨j, m⟩ := q
          cases j with
          | none => rfl
          | some j => exact l2
        · rfl
      | asleep clock since delay =>
        simp only
        split
        · rfl
        · split <;> rfl

theorem streams_run_paused (s : Streams) (as : List TStAct) :
    (s.run as).conc.mem.paused = s.conc.mem.paused := by
  induction as generalizing s with
  | nil => rfl
  | cons a as ih => exact (ih _).trans (step_paused s a.now a.act)

/-- **C30.** Take any schedule of clients and streams on an unpaused backend and any
stream that is asleep: its wait is at most 30 s, and if no message is waiting for it, its
timer runs out no later than the scheduled time of every available job of its executor
whose enqueue call has returned (plus the time the stream took between reading the clock
and going to sleep), or at most 15 ms after it went to sleep. So no change that makes a
job available, or available earlier, goes unnoticed. -/
theorem C30_no_missed_job (as : List TStAct) (r : Reader) (clock since : Time) (delay : Delta)
    (hr : r ∈ ((Streams.init).run as).readers) (hw : r.wait = .asleep clock since delay) :
    (0 ≤ delay ∧ delay ≤ 30 * sec) ∧
    (((Streams.init).run as).conc.mem.hasMessage r.sub = false →
      ∀ k ∈ ((Streams.init).run as).conc.mem.jobs,
        (k.job.status = .scheduled ∨ k.job.status = .retryable) → k.job.executor = r.executor →
        ¬ ((Streams.init).run as).conc.enqueuing k.job →
        since + delay ≤ k.job.scheduledAt + (since - clock) ∨ since + delay ≤ since + 15 * ms) := by
  have H := streamInv_run (streamInv_init false) as
  have hpa : ((Streams.init).run as).conc.mem.paused = false := streams_run_paused _ as
  constructor
  · have := H.sane r hr; rw [hw] at this; exact this
  · intro hq k hk ha hx he
    obtain ⟨sb, h1, h2⟩ := H.bound r hr
    simp only [Mem.hasMessage, h1] at hq
    have := H.covers hpa r hr sb h1 (by simpa using hq) k hk ha hx he
    rw [hw] at this
    simp only [Wait.covers, pollDelta, Time, Delta] at *
    omega

/-- A stream, a job that is enqueued while it is going to sleep, and the wait. -/
def streamSample : List TStAct :=
  [⟨0, .subscribe "mail"⟩, ⟨0, .client (.start { sampleEnq with scheduledAt := 7 * sec })⟩,
   ⟨0, .client (.advance 0)⟩, ⟨0, .client (.advance 0)⟩, ⟨0, .client (.advance 0)⟩,
   ⟨1 * sec, .stream 0 false⟩, ⟨2 * sec, .stream 0 false⟩, ⟨3 * sec, .stream 0 false⟩, ⟨3 * sec, .stream 0 false⟩,
   ⟨4 * sec, .stream 0 false⟩, ⟨4 * sec, .stream 0 false⟩, ⟨4 * sec, .stream 0 false⟩]

/-- The hypotheses are met: the stream sleeps until the job is due. -/
example : ((Streams.init).run streamSample).readers =
      [{ sub := 0, executor := "mail", wait := .asleep (4 * sec) (4 * sec) (3 * sec) }] ∧
    ((Streams.init).run streamSample).conc.mem.hasMessage 0 = false ∧
    ∀ k ∈ ((Streams.init).run streamSample).conc.mem.jobs, k.job.status = .scheduled ∧ k.job.executor = "mail" := by
  decide

/-- **C30, progress.** A stream that is woken or about to look, while a job of its executor
is available and due within 15 ms, returns a job if nothing interferes: after at most one
step that wakes it, three steps later. -/
theorem C30_prompt (s : Streams) (i : Nat) (r : Reader) (k : KeyedJob) (t₁ t₂ t₃ : Time) (b : Bool)
    (hr : s.readers[i]? = some r) (hw : r.wait = .ready)
    (hk : k ∈ s.conc.mem.jobs) (ha : k.job.status = .scheduled ∨ k.job.status = .retryable)
    (hx : k.job.executor = r.executor) (hd : k.job.scheduledAt ≤ t₂ + 15 * ms) (ht : t₂ ≤ t₃) :
    ∃ f d j, s.trace [⟨t₁, .stream i b⟩, ⟨t₂, .stream i b⟩, ⟨t₃, .stream i b⟩] =
      [.looked i f, .decided i d, .returned i j] ∧ j.executor = r.executor := by
  have hc := nextAvailable_covers hk ha hx
  have hset : ∀ w w' : Wait, ((s.setWait i w).setWait i w') = s.setWait i w' := by
    intro w w'
    simp only [Streams.setWait, Streams.mk.injEq, true_and]
    refine List.ext_getElem? fun n => ?_
    simp only [List.getElem?_modify]
    cases s.readers[n]? with
    | none => simp
    | some r => by_cases h : i = n <;> simp [h]
  have hget : ∀ w : Wait, (s.setWait i w).readers[i]? = some { r with wait := w } := by
    intro w; simp [Streams.setWait, hr]
  cases hn : s.conc.mem.nextAvailable r.executor with
  | none => rw [hn] at hc; exact hc.elim
  | some f =>
    rw [hn] at hc
    have hdel : streamDelay t₂ (some f) ≤ pollDelta := by
      simp only [Wait.covers, streamDelay, defaultDelay, pollDelta, sec, ms, Time, Delta] at *
      split <;> omega
    have hready : readyFor t₃ r.executor k.job = true := by
      rw [readyFor_iff]
      refine ⟨hx, ?_, ha⟩
      simp only [ms, Time, Delta] at *; omega
    rcases load_cases t₃ r.executor s.conc.mem with ⟨h, -⟩ | ⟨l, k', rr, h1, h2, h3, h4, h5⟩
    · rw [h k hk] at hready; simp at hready
    · refine ⟨some f, streamDelay t₂ (some f), k'.job.markExecuting t₃, ?_, ?_⟩
      · simp only [Streams.trace, Streams.step, hr, Streams.streamStep, hw, hn, hget, hset, hdel, if_true]
        have : (s.setWait i (.decided t₂ (streamDelay t₂ (some f)))).conc = s.conc := rfl
        rw [this, h5]
      · rw [readyFor_iff] at h2
        simp only [Job.markExecuting, h2.1]

/-- **C30, waking.** A sleeping stream with a message in its channel, or whose timer has run
out, wakes at its next step. -/
theorem C30_wakes (s : Streams) (i : Nat) (r : Reader) (t clock since : Time) (delay : Delta) (b : Bool)
    (hr : s.readers[i]? = some r) (hw : r.wait = .asleep clock since delay)
    (h : s.conc.mem.hasMessage r.sub = true ∨ since + delay ≤ t) :
    ∃ r', (s.step t (.stream i b)).2.readers[i]? = some r' ∧ r'.wait = .ready ∧
      r'.sub = r.sub ∧ r'.executor = r.executor := by
  refine ⟨{ r with wait := .ready }, ?_, rfl, rfl, rfl⟩
  simp only [Streams.step, hr, Streams.streamStep, hw]
  split
  · simp [Streams.setWait, Streams.setMem, hr]
  · split
    · simp [Streams.setWait, hr]
    · rename_i h1 h2
      exfalso
      rcases h with h | h
      · simp_all
      · exact h2 (by simpa using h)

/-- Stream `i` returned a job of the executor `x`. -/
def StEv.returns (i : Nat) (x : String) : StEv → Bool
  | .returned k j => k == i && j.executor == x
  | _ => false

/-- Later the timer runs out and the job is returned. -/
example : (((Streams.init).run (streamSample ++ [⟨7 * sec, .stream 0 true⟩])).trace
    [⟨7 * sec, .stream 0 true⟩, ⟨7 * sec, .stream 0 true⟩, ⟨7 * sec, .stream 0 true⟩]).map (StEv.returns 0 "mail") =
    [false, false, true] := by
  decide

/-! ## C31 -/

/-- Stream `i` was woken by a message. -/
def StEv.isReceived (i : Nat) : StEv → Bool
  | .received j => j == i
  | _ => false

private theorem receive_length {s : Streams} {n : Nat} {sb : Sub} (h : s.conc.mem.subs[n]? = some sb)
    (hm : s.conc.mem.hasMessage n = true) :
    ∃ sb', (s.conc.mem.receive n).subs[n]? = some sb' ∧ 1 + sb'.queue.length = sb.queue.length := by
  refine ⟨{ sb with queue := sb.queue.tail }, by simp [Mem.receive, h], ?_⟩
  simp only [Mem.hasMessage, h] at hm
  cases hq : sb.queue with
  | nil => simp [hq] at hm
  | cons a q => simp; omega

private theorem msgs_step {s : Streams} (H : StreamInv s) (hp : s.conc.mem.paused = true) {i : Nat} {r : Reader}
    {sb : Sub} (hr : s.readers[i]? = some r) (hsb : s.conc.mem.subs[r.sub]? = some sb) (t : Time) (a : StAct) :
    ∃ r' sb', (s.step t a).2.readers[i]? = some r' ∧ (s.step t a).2.conc.mem.subs[r'.sub]? = some sb' ∧
      ([(s.step t a).1].countP (StEv.isReceived i)) + sb'.queue.length =
        sb.queue.length + ([a].countP StAct.isNotifyAll) := by
  cases a with
  | client a =>
    cases hn : (StAct.client a).isNotifyAll with
    | false =>
      refine ⟨r, sb, hr, (client_subs t s.conc a).2.1 hp hn r.sub sb hsb, ?_⟩
      simp [Streams.step, StEv.isReceived, hn]
    | true =>
      unfold StAct.isNotifyAll at hn
      split at hn
      · rename_i h
        simp only [StAct.client.injEq] at h
        subst h
        refine ⟨r, { sb with queue := sb.queue ++ [t] }, hr, ?_, ?_⟩
        · simp [Streams.step, Conc.step, Mem.step, Mem.notifyAll, hsb]
        · simp [Streams.step, StEv.isReceived, StAct.isNotifyAll]
      · simp at hn
  | subscribe x =>
    refine ⟨r, sb, ?_, ?_, ?_⟩
    · simp only [Streams.step]
      rw [List.getElem?_append_left (List.getElem?_eq_some_iff.mp hr).1, hr]
    · simp only [Streams.step, Mem.subscribe]
      rw [List.getElem?_append_left (List.getElem?_eq_some_iff.mp hsb).1, hsb]
    · simp [Streams.step, StEv.isReceived, StAct.isNotifyAll]
  | stream n timer =>
    simp only [Streams.step]
    cases hq : s.readers[n]? with
    | none => exact ⟨r, sb, hr, hsb, by simp [StEv.isReceived, StAct.isNotifyAll]⟩
    | some q =>
      have hset : ∀ (s' : Streams) w, s'.readers = s.readers → ∃ r', (s'.setWait n w).readers[i]? = some r' ∧ r'.sub = r.sub := by
        intro s' w he
        by_cases hi : n = i
        · subst hi; exact ⟨{ r with wait := w }, by simp [Streams.setWait, he, hr], rfl⟩
        · exact ⟨r, by simp [Streams.setWait, he, hi, hr], rfl⟩
      simp only [Streams.streamStep]
      have plain : ∀ (s' : Streams) w (ev : StEv), s'.readers = s.readers → s'.conc.mem.subs = s.conc.mem.subs → ev.isReceived i = false →
          ∃ r' sb', (s'.setWait n w).readers[i]? = some r' ∧ (s'.setWait n w).conc.mem.subs[r'.sub]? = some sb' ∧
          ([ev].countP (StEv.isReceived i)) + sb'.queue.length =
            sb.queue.length + ([StAct.stream n timer].countP StAct.isNotifyAll) := by
        intro s' w ev he hs hev
        obtain ⟨r', h1, h2⟩ := hset s' w he
        refine ⟨r', sb, h1, ?_, by simp [hev, StAct.isNotifyAll]⟩
        show s'.conc.mem.subs[r'.sub]? = _
        rw [hs, h2, hsb]
      cases hw : q.wait with
      | ready => exact plain s _ _ rfl rfl rfl
      | looked f => exact plain s _ _ rfl rfl rfl
      | decided clock delay =>
        simp only
        split
        · obtain ⟨l1, -, -⟩ := load_subs t q.executor s.conc.mem
          generalize s.conc.mem.load t q.executor = p at l1
          obtain ⟨j, m⟩ := p
          cases j with
          | none => exact plain s _ _ rfl rfl rfl
          | some j => exact plain (s.setMem m) _ _ rfl l1 rfl
        · exact plain s _ _ rfl rfl rfl
      | asleep clock since delay =>
        simp only
        split
        · rename_i hmsg
          simp only [Bool.and_eq_true] at hmsg
          obtain ⟨r', h1, h2⟩ := hset (s.setMem (s.conc.mem.receive q.sub)) .ready rfl
          by_cases hi : n = i
          · subst hi
            rw [hr] at hq
            simp only [Option.some.injEq] at hq
            subst hq
            obtain ⟨sb', g1, g2⟩ := receive_length hsb hmsg.1
            refine ⟨r', sb', h1, ?_, ?_⟩
            · show (s.conc.mem.receive r.sub).subs[r'.sub]? = _
              rw [h2, g1]
            · simp [StEv.isReceived, StAct.isNotifyAll]; omega
          · refine ⟨r', sb, h1, ?_, ?_⟩
            · show (s.conc.mem.receive q.sub).subs[r'.sub]? = _
              have := stream_sub_ne H.distinct hr hq hi
              rw [h2]
              simp [Mem.receive, this, hsb]
            · simp [StEv.isReceived, StAct.isNotifyAll, hi]
        · split
          · exact plain s _ _ rfl rfl rfl
          · exact ⟨r, sb, hr, hsb, by simp [StEv.isReceived, StAct.isNotifyAll]⟩

private theorem msgs_run {s : Streams} (H : StreamInv s) (hp : s.conc.mem.paused = true) {i : Nat} {r : Reader}
    {sb : Sub} (hr : s.readers[i]? = some r) (hsb : s.conc.mem.subs[r.sub]? = some sb) (as : List TStAct) :
    ∃ r' sb', (s.run as).readers[i]? = some r' ∧ (s.run as).conc.mem.subs[r'.sub]? = some sb' ∧
      (s.trace as).countP (StEv.isReceived i) + sb'.queue.length =
        sb.queue.length + as.countP (fun a => a.act.isNotifyAll) := by
  induction as generalizing s r sb with
  | nil => exact ⟨r, sb, hr, hsb, by simp [Streams.trace]⟩
  | cons a as ih =>
    obtain ⟨r₁, sb₁, h1, h2, h3⟩ := msgs_step H hp hr hsb a.now a.act
    obtain ⟨r₂, sb₂, g1, g2, g3⟩ := ih (streamInv_step H a.now a.act) ((step_paused s a.now a.act).trans hp) h1 h2
    refine ⟨r₂, sb₂, g1, g2, ?_⟩
    simp only [Streams.trace]
    rw [List.countP_cons] at h3 ⊢
    rw [List.countP_cons] at h3 ⊢
    simp only [List.countP_nil] at h3
    omega

/-- **C31.** On a paused backend, from the moment a stream subscribes, the number of times a
message wakes it plus the number of messages waiting for it is exactly the number of
`notify_all` calls: nothing else wakes it, except its own timer, and each `notify_all`
wakes it exactly once. -/
theorem C31_paused (as bs : List TStAct) (x : String) (t : Time) :
    ∃ r sb, ((Streams.init true).run (as ++ ⟨t, .subscribe x⟩ :: bs)).readers[((Streams.init true).run as).readers.length]? = some r ∧
      ((Streams.init true).run (as ++ ⟨t, .subscribe x⟩ :: bs)).conc.mem.subs[r.sub]? = some sb ∧
      (((Streams.init true).run (as ++ [⟨t, .subscribe x⟩])).trace bs).countP
          (StEv.isReceived ((Streams.init true).run as).readers.length) + sb.queue.length =
        bs.countP (fun a => a.act.isNotifyAll) := by
  have happ : ∀ (s : Streams) (as bs : List TStAct), s.run (as ++ bs) = (s.run as).run bs := by
    intro s as bs
    induction as generalizing s with
    | nil => rfl
    | cons a as ih => exact ih _
  have hsplit : as ++ ⟨t, .subscribe x⟩ :: bs = (as ++ [⟨t, .subscribe x⟩]) ++ bs := by simp
  rw [hsplit, happ]
  have H := streamInv_run (streamInv_init true) (as ++ [⟨t, .subscribe x⟩])
  have hp : ((Streams.init true).run (as ++ [⟨t, .subscribe x⟩])).conc.mem.paused = true := streams_run_paused _ _
  have hr : ((Streams.init true).run (as ++ [⟨t, .subscribe x⟩])).readers[((Streams.init true).run as).readers.length]? =
      some { sub := ((Streams.init true).run as).conc.mem.subs.length, executor := x } := by
    rw [happ]; simp [Streams.run, Streams.step]
  have hsb : ((Streams.init true).run (as ++ [⟨t, .subscribe x⟩])).conc.mem.subs[((Streams.init true).run as).conc.mem.subs.length]? =
      some { executor := x } := by
    rw [happ]; simp [Streams.run, Streams.step, Mem.subscribe]
  obtain ⟨r', sb', h1, h2, h3⟩ := msgs_run H hp hr hsb bs
  exact ⟨r', sb', h1, h2, by simpa using h3⟩

/-- A paused backend with a sleeping stream: an enqueue does not wake it, `notify_all` does. -/
example : ((Streams.init true).trace
    [⟨0, .subscribe "mail"⟩, ⟨0, .stream 0 false⟩, ⟨0, .stream 0 false⟩, ⟨0, .stream 0 false⟩,
     ⟨1, .client (.start sampleEnq)⟩, ⟨1, .client (.advance 0)⟩, ⟨1, .client (.advance 0)⟩,
     ⟨1, .client (.advance 0)⟩, ⟨2, .stream 0 false⟩,
     ⟨3, .client (.op .notifyAll)⟩, ⟨4, .stream 0 false⟩]).drop 8 =
    [.nothing, .client (.op .notifyAll .unit), .received 0] := by rfl

/-- **C31, pausing later.** `paused` can be called on (a clone of) a backend in use. From then on the
same holds for every stream there is: the messages that wake it plus those still waiting are the
messages that were waiting for it plus one for each `notify_all`. -/
theorem C31_paused_later (paused : Bool) (as bs : List TStAct) (i : Nat) (r : Reader) (sb : Sub)
    (hr : ((Streams.init paused).run as).readers[i]? = some r)
    (hsb : ((Streams.init paused).run as).conc.mem.subs[r.sub]? = some sb) :
    let s := ((Streams.init paused).run as).setMem ((Streams.init paused).run as).conc.mem.setPaused
    ∃ r' sb', (s.run bs).readers[i]? = some r' ∧ (s.run bs).conc.mem.subs[r'.sub]? = some sb' ∧
      (s.trace bs).countP (StEv.isReceived i) + sb'.queue.length =
        sb.queue.length + bs.countP (fun a => a.act.isNotifyAll) := by
  intro s
  have H : StreamInv s := by
    have H := streamInv_run (streamInv_init paused) as
    exact ⟨H.bound, H.distinct, H.sane, fun h => nomatch h⟩
  exact msgs_run H rfl hr hsb bs

/-- The stream falls asleep on a backend that is not paused; then it is paused and a job enqueued. -/
example :
    let s := (Streams.init false).run [⟨0, .subscribe "mail"⟩, ⟨0, .stream 0 false⟩, ⟨0, .stream 0 false⟩, ⟨0, .stream 0 false⟩]
    ((s.setMem s.conc.mem.setPaused).trace [⟨1, .client (.start sampleEnq)⟩, ⟨1, .client (.advance 0)⟩, ⟨1, .client (.advance 0)⟩,
      ⟨1, .client (.advance 0)⟩, ⟨2, .stream 0 false⟩, ⟨3, .client (.op .notifyAll)⟩, ⟨4, .stream 0 false⟩]).drop 4 =
    [.nothing, .client (.op .notifyAll .unit), .received 0] := by rfl

/-- **C31, limits of pausing.** Pausing does not stop execution: a sleeping stream's timer
still runs out after 30 s at the latest and the stream then returns the job, without any
`notify_all`. -/
theorem C31_timer_still_runs :
    ∃ as : List TStAct, (∀ a ∈ as, a.act.isNotifyAll = false) ∧
      ((Streams.init true).trace as).any (StEv.returns 0 "mail") = true :=
  ⟨[⟨0, .subscribe "mail"⟩, ⟨0, .stream 0 false⟩, ⟨0, .stream 0 false⟩, ⟨0, .stream 0 false⟩,
     ⟨1, .client (.start sampleEnq)⟩, ⟨1, .client (.advance 0)⟩, ⟨1, .client (.advance 0)⟩,
     ⟨1, .client (.advance 0)⟩, ⟨30 * sec, .stream 0 false⟩, ⟨30 * sec, .stream 0 false⟩,
     ⟨30 * sec, .stream 0 false⟩, ⟨30 * sec, .stream 0 false⟩],
   by decide, by decide⟩

end Rexecutor
