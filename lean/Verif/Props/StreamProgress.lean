import Verif.Props.Stream
import Verif.Props.Progress

/-! # C109: a due job is returned by a stream in bounded time (in-memory backend) -/

namespace Rexecutor

/-- The events of a schedule with their times. -/
def Streams.events (s : Streams) : List TStAct → List (Time × StEv)
  | [] => []
  | a :: as => (a.now, (s.step a.now a.act).1) :: Streams.events (s.step a.now a.act).2 as

/-- The event hands out job `id`, to a stream or to another client. -/
def StEv.handsOut (id : Int) : StEv → Bool
  | .returned _ j => j.id == id
  | .client ev => ev.handsOut id
  | _ => false

/-- Clients leave the waiting job `j` alone and put nothing in front of it. -/
def StEv.LetsPass (j : Job) (now : Time) : StEv → Prop
  | .client ev => ev.finishes j.id = false ∧ ev.putsBack j.id = false ∧ ev.KeepsWaiting ∧ ev.QueuesBehind j now
  | _ => True

instance (j : Job) (now : Time) (e : StEv) : Decidable (e.LetsPass j now) := by
  unfold StEv.LetsPass; split <;> infer_instance

/-- The action is a step of stream `i`. -/
def StAct.isStream (i : Nat) : StAct → Bool
  | .stream n _ => n == i
  | _ => false

/-- What stream `i` still has to do before it loads a job. -/
private def Wait.left : Wait → Nat
  | .asleep _ _ _ => 4
  | .ready => 3
  | .looked _ => 2
  | .decided _ _ => 1

/-- stream `i` is on its way to load a job at any time from `T` on, `t` being the time job is scheduled for -/
private def Wait.onWay (t T : Time) (msg : Bool) : Wait → Prop
  | .asleep _ since delay => msg = true ∨ since + delay ≤ T
  | .ready => True
  | .looked none => False
  | .looked (some f) => f ≤ t
  | .decided _ delay => delay ≤ pollDelta

private theorem hasMessage_grow {m m' : Mem} (hg : SubsGrow m m') {n : Nat} (h : m.hasMessage n = true) : m'.hasMessage n = true := by
  unfold Mem.hasMessage at h ⊢
  cases hs : m.subs[n]? with
  | none => rw [hs] at h; cases h
  | some sb =>
    rw [hs] at h
    obtain ⟨q, hq⟩ := hg.2 _ _ hs
    rw [hq]
    simp only [Bool.not_eq_true', List.isEmpty_eq_false_iff] at h ⊢
    simp [h]

private theorem onWay_mono {t T : Time} {a b : Bool} {w : Wait} (h : w.onWay t T a) (hab : a = true → b = true) : w.onWay t T b := by
  cases w with
  | asleep c s d => exact h.imp hab id
  | ready => trivial
  | looked f => cases f <;> exact h
  | decided c d => exact h

private theorem reader_other {s : Streams} {i n : Nat} (hne : n ≠ i) (w : Wait) : (s.setWait n w).readers[i]? = s.readers[i]? := by
  simp [Streams.setWait, hne]

/-- A step of anything but stream `i`. -/
private theorem other_step {s : Streams} (H : StreamInv s) {now T : Time} {a : StAct} {i : Nat} {r : Reader} {k : KeyedJob}
    (hr : s.readers[i]? = some r) (ha : a.isStream i = false) (hk : k ∈ s.conc.mem.jobs)
    (hw : k.job.status = .scheduled ∨ k.job.status = .retryable)
    (hway : r.wait.onWay k.job.scheduledAt T (s.conc.mem.hasMessage r.sub))
    (hpass : (s.step now a).1.LetsPass k.job now) (hno : (s.step now a).1.handsOut k.job.id = false) :
    (s.step now a).2.readers[i]? = some r ∧ k ∈ (s.step now a).2.conc.mem.jobs ∧
    r.wait.onWay k.job.scheduledAt T ((s.step now a).2.conc.mem.hasMessage r.sub) ∧
    (s.step now a).2.conc.mem.jobs.countP (aheadOf k.job) ≤ s.conc.mem.jobs.countP (aheadOf k.job) := by
  cases a with
  | client a =>
    simp only [Streams.step, StEv.LetsPass, StEv.handsOut] at hpass hno ⊢
    obtain ⟨h1, h2, h3, h4⟩ := hpass
    refine ⟨hr, waiting_stays hk hw ?_ h3, onWay_mono hway (hasMessage_grow (client_subs now s.conc a).1), ahead_step_le h4⟩
    simp only [Ev.touches, hno, h1, h2]; rfl
  | subscribe x =>
    simp only [Streams.step]
    refine ⟨?_, hk, onWay_mono hway fun h => ?_, Nat.le_refl _⟩
    · rw [List.getElem?_append_left (List.getElem?_eq_some_iff.mp hr).1, hr]
    · obtain ⟨sb, h1, -⟩ := H.bound r (List.mem_of_getElem? hr)
      simp only [Mem.hasMessage, Mem.subscribe] at h ⊢
      rw [List.getElem?_append_left (List.getElem?_eq_some_iff.mp h1).1]
      exact h
  | stream n timer =>
    have hni : n ≠ i := by simpa [StAct.isStream] using ha
    simp only [Streams.step] at hno ⊢
    cases hq : s.readers[n]? with
    | none => exact ⟨hr, hk, hway, Nat.le_refl _⟩
    | some q =>
      simp only [hq] at hno ⊢
      have plain : ∀ w, (s.setWait n w).readers[i]? = some r ∧ k ∈ (s.setWait n w).conc.mem.jobs ∧
          r.wait.onWay k.job.scheduledAt T ((s.setWait n w).conc.mem.hasMessage r.sub) ∧
          (s.setWait n w).conc.mem.jobs.countP (aheadOf k.job) ≤ s.conc.mem.jobs.countP (aheadOf k.job) :=
        fun w => ⟨by rw [reader_other hni, hr], hk, hway, Nat.le_refl _⟩
      simp only [Streams.streamStep] at hno ⊢
      cases hwt : q.wait with
      | ready => exact plain _
      | looked f => exact plain _
      | decided clock delay =>
        simp only [hwt] at hno ⊢
        split
        · rename_i hd
          simp only [hd, if_true] at hno
          have hl := load_subs now q.executor s.conc.mem
          have hst := @waiting_stays s.conc now (.op (.load q.executor)) k hk hw
          have hah := @ahead_step_le k.job s.conc now (.op (.load q.executor))
          simp only [Conc.step, Mem.step] at hst hah
          generalize s.conc.mem.load now q.executor = p at hl hst hah hno
          obtain ⟨j, m⟩ := p
          cases j with
          | none => exact plain _
          | some j =>
            refine ⟨?_, hst ?_ trivial, onWay_mono hway ?_, hah trivial⟩
            · rw [reader_other hni]; exact hr
            · simp only [StEv.handsOut] at hno
              simp [Ev.touches, Ev.handsOut, Ev.finishes, Ev.putsBack, Ev.retries, Ev.snoozes, Ev.reruns, Ev.updates, Ev.conflicts, hno]
            · intro h
              show m.hasMessage r.sub = true
              have hs : m.subs = s.conc.mem.subs := hl.1
              simp only [Mem.hasMessage] at h ⊢
              rw [hs]; exact h
        · exact plain _
      | asleep clock since delay =>
        simp only [hwt] at hno ⊢
        split
        · refine ⟨?_, hk, onWay_mono hway fun h => ?_, Nat.le_refl _⟩
          · rw [reader_other hni]; exact hr
          · have := stream_sub_ne H.distinct hr hq hni
            show (s.conc.mem.receive q.sub).hasMessage r.sub = true
            simp only [Mem.hasMessage, Mem.receive, List.getElem?_modify] at h ⊢
            simpa [this] using h
        · split
          · exact plain _
          · exact ⟨hr, hk, hway, Nat.le_refl _⟩

/-- A step of stream `i`. -/
private theorem own_step {s : Streams} {now T : Time} {b : Bool} {i : Nat} {r : Reader} {k : KeyedJob}
    (hr : s.readers[i]? = some r) (hk : k ∈ s.conc.mem.jobs)
    (hw : k.job.status = .scheduled ∨ k.job.status = .retryable) (hx : k.job.executor = r.executor)
    (hway : r.wait.onWay k.job.scheduledAt T (s.conc.mem.hasMessage r.sub))
    (hT : T ≤ now) (hdue : k.job.scheduledAt ≤ now) (hno : (s.step now (.stream i b)).1.handsOut k.job.id = false) :
    ∃ r', (s.step now (.stream i b)).2.readers[i]? = some r' ∧ r'.executor = r.executor ∧
      k ∈ (s.step now (.stream i b)).2.conc.mem.jobs ∧
      r'.wait.onWay k.job.scheduledAt T ((s.step now (.stream i b)).2.conc.mem.hasMessage r'.sub) ∧
      r'.wait.left + 3 * (s.step now (.stream i b)).2.conc.mem.jobs.countP (aheadOf k.job) <
        r.wait.left + 3 * s.conc.mem.jobs.countP (aheadOf k.job) := by
  have hget : ∀ (s' : Streams) w, s'.readers = s.readers → (s'.setWait i w).readers[i]? = some { r with wait := w } := by
    intro s' w h; simp [Streams.setWait, h, hr]
  simp only [Streams.step, hr, Streams.streamStep] at hno ⊢
  cases hwt : r.wait with
  | ready =>
    refine ⟨_, hget s _ rfl, rfl, hk, ?_, by simp only [Wait.left]; exact Nat.add_lt_add_right (by decide) _⟩
    have := nextAvailable_covers hk hw hx
    simp only
    cases hn : s.conc.mem.nextAvailable r.executor with
    | none => rw [hn] at this; exact this.elim
    | some f => rw [hn] at this; exact this
  | looked f =>
    refine ⟨_, hget s _ rfl, rfl, hk, ?_, by simp only [Wait.left]; exact Nat.add_lt_add_right (by decide) _⟩
    rw [hwt] at hway
    cases f with
    | none => exact hway.elim
    | some f =>
      simp only [Wait.onWay, streamDelay, defaultDelay, pollDelta, sec, ms, Time, Delta] at *
      split <;> omega
  | decided clock delay =>
    rw [hwt] at hway
    have hd : delay ≤ pollDelta := hway
    simp only [hwt, hd, if_true] at hno ⊢
    have hready : readyFor now r.executor k.job = true := by
      rw [readyFor_iff]
      refine ⟨hx, ?_, hw⟩
      simp only [ms, Time, Delta] at *; omega
    have hst := @waiting_stays s.conc now (.op (.load r.executor)) k hk hw
    have hah := @asking_takes s.conc now (.op (.load r.executor)) k hk hw (by simp only [Time] at *; omega)
    simp only [Conc.step, Mem.step] at hst hah
    rcases load_cases now r.executor s.conc.mem with ⟨h, -⟩ | ⟨l, k', rr, h1, h2, h3, h4, h5⟩
    · rw [h k hk] at hready; cases hready
    · rw [h5] at hst hah hno ⊢
      simp only [StEv.handsOut] at hno
      have hh : (Ev.op (.load r.executor) (.job (some (k'.job.markExecuting now)))).handsOut k.job.id = false := hno
      refine ⟨_, hget _ _ rfl, rfl, hst ?_ trivial, trivial, ?_⟩
      · simp [Ev.touches, hh, Ev.finishes, Ev.putsBack, Ev.retries, Ev.snoozes, Ev.reruns, Ev.updates, Ev.conflicts]
      · have := hah (by simp [Ev.asks, hx]) hh
        simp only [Wait.left, Streams.setWait, Streams.setMem] at this ⊢
        omega
  | asleep clock since delay =>
    rw [hwt] at hway
    have hz : ∀ c : Nat, Wait.left .ready + 3 * c < Wait.left (.asleep clock since delay) + 3 * c := by
      intro c; simp only [Wait.left]; omega
    simp only
    split
    · exact ⟨_, hget _ _ rfl, rfl, hk, trivial, hz _⟩
    · split
      · exact ⟨_, hget _ _ rfl, rfl, hk, trivial, hz _⟩
      · rename_i h1 h2
        exfalso
        have hdu : decide (since + delay ≤ now) = false := by simpa using h2
        rcases hway with h | h
        · rw [h, hdu] at h1; simp at h1
        · simp only [decide_eq_false_iff_not, Time, Delta] at *
          omega

private theorem bounded {s : Streams} (H : StreamInv s) (as : List TStAct) {i : Nat} {r : Reader} {k : KeyedJob} {T : Time}
    (hr : s.readers[i]? = some r) (hk : k ∈ s.conc.mem.jobs)
    (hw : k.job.status = .scheduled ∨ k.job.status = .retryable) (hx : k.job.executor = r.executor)
    (hway : r.wait.onWay k.job.scheduledAt T (s.conc.mem.hasMessage r.sub))
    (hlate : ∀ a ∈ as, a.act.isStream i = true → T ≤ a.now ∧ k.job.scheduledAt ≤ a.now)
    (hpass : ∀ e ∈ s.events as, e.2.LetsPass k.job e.1)
    (hmany : r.wait.left + 3 * s.conc.mem.jobs.countP (aheadOf k.job) ≤ as.countP fun a => a.act.isStream i) :
    ∃ e ∈ s.events as, e.2.handsOut k.job.id = true := by
  induction as generalizing s r with
  | nil => cases h : r.wait <;> simp [h, Wait.left] at hmany
  | cons a as ih =>
    simp only [Streams.events] at hpass ⊢
    cases hh : (s.step a.now a.act).1.handsOut k.job.id with
    | true => exact ⟨_, List.mem_cons_self, hh⟩
    | false =>
      have fin : ∀ r', (s.step a.now a.act).2.readers[i]? = some r' → k.job.executor = r'.executor →
          k ∈ (s.step a.now a.act).2.conc.mem.jobs →
          r'.wait.onWay k.job.scheduledAt T ((s.step a.now a.act).2.conc.mem.hasMessage r'.sub) →
          r'.wait.left + 3 * (s.step a.now a.act).2.conc.mem.jobs.countP (aheadOf k.job) ≤ as.countP (fun a => a.act.isStream i) →
          ∃ e ∈ (a.now, (s.step a.now a.act).1) :: (s.step a.now a.act).2.events as, e.2.handsOut k.job.id = true := by
        intro r' g1 g2 g3 g4 g5
        obtain ⟨e, he, h⟩ := ih (streamInv_step H a.now a.act) g1 g3 g2 g4
          (fun b hb => hlate b (List.mem_cons_of_mem _ hb)) (fun e he => hpass e (List.mem_cons_of_mem _ he)) g5
        exact ⟨e, List.mem_cons_of_mem _ he, h⟩
      simp only [List.countP_cons] at hmany
      cases hs : a.act.isStream i with
      | false =>
        obtain ⟨g1, g2, g3, g4⟩ := other_step (now := a.now) H hr hs hk hw hway (hpass _ List.mem_cons_self) hh
        refine fin r g1 hx g2 g3 ?_
        simp only [hs] at hmany; simp at hmany; omega
      | true =>
        obtain ⟨now, act⟩ := a
        cases act with
        | stream n b =>
          have : n = i := by simpa [StAct.isStream] using hs
          subst this
          obtain ⟨l1, l2⟩ := hlate _ List.mem_cons_self hs
          obtain ⟨r', g1, g2, g3, g4, g5⟩ := own_step (b := b) hr hk hw hx hway l1 l2 hh
          refine fin r' g1 (hx.trans g2.symm) g3 g4 ?_
          simp only [hs] at hmany; simp at hmany; simp only at g5 ⊢; omega
        | _ => cases hs

/-- **C109.** Take any reachable state of an unpaused backend with its streams, a waiting job `k` whose
enqueue call has returned, and a stream `i` of its executor that is asleep or about to look. Let
clients leave `k` alone and put nothing in front of it, and let all steps of the stream be made from
the time on when `k` is due; if the stream is asleep, moreover not before the lag with which it went
to sleep has passed as well, or the 15 ms of the shortest sleep. Then, whatever all other streams and
clients do: by the time the stream has made `3 n + 4` steps, `n` being the number of jobs ahead of
`k`, job `k` has been handed out. -/
theorem C109_bounded_wait (as₁ as₂ : List TStAct) (i : Nat) (r : Reader) (k : KeyedJob)
    (hr : ((Streams.init).run as₁).readers[i]? = some r) (hwait : r.wait = .ready ∨ ∃ clock since delay, r.wait = .asleep clock since delay)
    (hk : k ∈ ((Streams.init).run as₁).conc.mem.jobs) (hw : k.job.status = .scheduled ∨ k.job.status = .retryable)
    (hx : k.job.executor = r.executor) (hen : ¬ ((Streams.init).run as₁).conc.enqueuing k.job)
    (hlate : ∀ a ∈ as₂, a.act.isStream i = true → k.job.scheduledAt ≤ a.now ∧
      ∀ clock since delay, r.wait = .asleep clock since delay →
        k.job.scheduledAt + (since - clock) ≤ a.now ∧ since + 15 * ms ≤ a.now)
    (hpass : ∀ e ∈ ((Streams.init).run as₁).events as₂, e.2.LetsPass k.job e.1)
    (hmany : 3 * ((Streams.init).run as₁).conc.mem.jobs.countP (fun a => decide (Ahead k.job a.job)) + 4
      ≤ as₂.countP fun a => a.act.isStream i) :
    ∃ e ∈ ((Streams.init).run as₁).events as₂, e.2.handsOut k.job.id = true := by
  have H := streamInv_run (streamInv_init false) as₁
  rcases hwait with hwt | ⟨clock, since, delay, hwt⟩
  · refine bounded H as₂ (T := k.job.scheduledAt) hr hk hw hx (by rw [hwt]; trivial) (fun a ha hs => ?_) hpass ?_
    · exact ⟨(hlate a ha hs).1, (hlate a ha hs).1⟩
    · change 3 * _ + 4 ≤ _ at hmany
      rw [hwt]; simp only [Wait.left]
      exact Nat.le_trans (by have : (3 : Nat) ≤ 4 := by decide
                             exact (by omega : ∀ n : Nat, 3 + 3 * n ≤ 3 * n + 4) _) hmany
  · obtain ⟨-, hc⟩ := C30_no_missed_job as₁ r clock since delay (List.mem_of_getElem? hr) hwt
    refine bounded H as₂ (T := max (k.job.scheduledAt + (since - clock)) (since + 15 * ms)) hr hk hw hx ?_ (fun a ha hs => ?_) hpass ?_
    · rw [hwt]
      cases hm : ((Streams.init).run as₁).conc.mem.hasMessage r.sub with
      | true => exact .inl rfl
      | false =>
        right
        have := hc hm k hk hw hx hen
        simp only [Time, Delta, ms] at *
        omega
    · obtain ⟨h1, h2⟩ := hlate a ha hs
      obtain ⟨h3, h4⟩ := h2 clock since delay hwt
      refine ⟨?_, h1⟩
      simp only [Time, Delta, ms] at *
      omega
    · rw [hwt]; simp only [Wait.left]
      exact Nat.le_trans ((by omega : ∀ n : Nat, 4 + 3 * n ≤ 3 * n + 4) _) hmany

/-- Two jobs due at 7 s and 8 s and a stream that has gone to sleep until the first is due; a second
stream of the same executor, and a third job that comes behind. -/
private def crowd : List TStAct :=
  [⟨0, .subscribe "mail"⟩, ⟨0, .client (.start { sampleEnq with scheduledAt := 7 * sec })⟩,
   ⟨0, .client (.advance 0)⟩, ⟨0, .client (.advance 0)⟩, ⟨0, .client (.advance 0)⟩,
   ⟨0, .client (.start { sampleEnq with scheduledAt := 8 * sec })⟩,
   ⟨0, .client (.advance 1)⟩, ⟨0, .client (.advance 1)⟩, ⟨0, .client (.advance 1)⟩,
   ⟨1 * sec, .stream 0 false⟩, ⟨2 * sec, .stream 0 false⟩, ⟨3 * sec, .stream 0 false⟩, ⟨3 * sec, .stream 0 false⟩,
   ⟨3 * sec, .stream 0 false⟩, ⟨4 * sec, .stream 0 false⟩, ⟨5 * sec, .stream 0 false⟩]

private def rush : List TStAct :=
  [⟨6 * sec, .subscribe "mail"⟩, ⟨7 * sec, .client (.start { sampleEnq with scheduledAt := 9 * sec })⟩,
   ⟨7 * sec, .client (.advance 2)⟩] ++
  ([1, 0, 1, 0, 1, 0, 0, 0, 0, 0].map fun i => ⟨9 * sec, .stream i true⟩)

/-- The hypotheses are met for the second job: the first is ahead of it, and stream 0 makes seven steps. -/
example : (((Streams.init).run crowd).readers.map fun r => r.wait) = [.asleep (4 * sec) (5 * sec) (3 * sec)] ∧
    ((Streams.init).run crowd).conc.mem.jobs.map (fun k => (k.job.id, k.job.status, k.job.scheduledAt)) =
      [(0, .scheduled, 7 * sec), (1, .scheduled, 8 * sec)] ∧
    (∀ k ∈ ((Streams.init).run crowd).conc.mem.jobs, k.job.id = 1 →
      (∀ e ∈ ((Streams.init).run crowd).events rush, e.2.LetsPass k.job e.1) ∧
      ((Streams.init).run crowd).conc.mem.jobs.countP (fun a => decide (Ahead k.job a.job)) = 1) ∧
    (rush.countP fun a => a.act.isStream 0) = 7 ∧
    (((Streams.init).run crowd).events rush).findIdx? (fun e => e.2.handsOut 0) = some 7 ∧
    (((Streams.init).run crowd).events rush).findIdx? (fun e => e.2.handsOut 1) = some 9 := by
  decide

/-- Both enqueue calls have returned. -/
example (k : KeyedJob) : ¬ ((Streams.init).run crowd).conc.enqueuing k.job := by
  rintro ⟨e, h, -⟩
  have hall : (((Streams.init).run crowd).conc.calls.all fun p => match p with
    | .done _ => true
    | _ => false) = true := by decide
  exact absurd (List.all_eq_true.mp hall _ h) (by simp)

end Rexecutor
