import Verif.Props.OnTime
import Verif.Props.PgOnTime

/-!
# C134: without notifications a due job is handed out within half a minute

Nothing is assumed about notifications: the in-memory backend may be paused, on Postgres the
listener may have ended, have lost its connection, or be as slow as it likes.
-/

namespace Rexecutor

private theorem delay_le (now : Time) (f : Option Time) : streamDelay now f ≤ 30000000000 := by
  cases f with
  | none => simp [streamDelay, defaultDelay, sec]
  | some t =>
    simp only [streamDelay, defaultDelay, pollDelta, sec, ms, Time, Delta] at *
    split <;> omega

/-! ## In memory -/

/-- The delay a stream has chosen, if it has, is at most half a minute. -/
def waitsShort : Wait → Prop
  | .decided _ d => d ≤ 30000000000
  | .asleep _ _ d => d ≤ 30000000000
  | _ => True

/-- The stream has looked and found nothing in time, and is about to sleep. -/
def dozing (ε : Delta) (t₁ m : Time) : Wait → Prop
  | .looked _ => m ≤ t₁
  | .decided _ d => m ≤ t₁ + ε ∧ d ≤ 30000000000
  | _ => False

theorem waitsShort_step {s : Streams} {i : Nat} {r r' : Reader} {now : Time} {a : StAct} (hr : s.readers[i]? = some r)
    (h : waitsShort r.wait) (hr' : (s.step now a).2.readers[i]? = some r') : waitsShort r'.wait := by
  cases ha : a.isStream i with
  | false =>
    rw [stream_unmoved (now := now) hr ha, Option.some.injEq] at hr'
    exact hr' ▸ h
  | true =>
    cases a with
    | stream n b =>
      have hn : n = i := by simpa [StAct.isStream] using ha
      subst hn
      rcases onTime_own_cases (now := now) (b := b) hr with ⟨-, ⟨j, -, -, g⟩ | ⟨w, g, hw⟩⟩ | ⟨-, g⟩
      · rw [g, Option.some.injEq] at hr'
        subst hr'
        trivial
      · rw [g, Option.some.injEq] at hr'
        subst hr'
        cases hwt : r.wait with
        | ready => rw [hwt] at hw; rw [hw.1]; trivial
        | looked f => rw [hwt] at hw; rw [hw.1]; exact delay_le _ _
        | decided c d => rw [hwt] at hw h; rw [hw.1]; exact h
        | asleep c since d => rw [hwt] at hw; simp only at hw; rw [hw]; trivial
      · rw [g, hr, Option.some.injEq] at hr'
        exact hr' ▸ h
    | client a => cases ha
    | subscribe x => cases ha

/-- One action of a stream that is about to sleep. -/
theorem dozing_step {ε : Delta} (hε : 0 ≤ ε) {s : Streams} {i : Nat} {r r' : Reader} {m t₁ T' T : Time} {a : TStAct}
    (hr : s.readers[i]? = some r) (hr' : (s.step a.now a.act).2.readers[i]? = some r') (hd : dozing ε t₁ m r.wait)
    (hm : a.now ≤ m + ε) (hT' : t₁ + 30000000000 + 2 * ε ≤ T') :
    (∃ j, (s.step a.now a.act).1 = .returned i j ∧ j.executor = r.executor) ∨
      dozing ε t₁ (onTimeNext i m s a) r'.wait ∨
      onTimeNear ε T T' (onTimeNext i m s a) ((s.step a.now a.act).2.conc.mem.hasMessage r.sub) r'.wait := by
  obtain ⟨now, a⟩ := a
  simp only at *
  have stay : ∀ m', m' ≤ m → r' = r → dozing ε t₁ m' r'.wait := by
    intro m' h e
    rw [e]
    cases hwt : r.wait with
    | looked f => rw [hwt] at hd; exact Int.le_trans h hd
    | decided c d => rw [hwt] at hd; exact ⟨Int.le_trans h hd.1, hd.2⟩
    | ready => rw [hwt] at hd; exact hd.elim
    | asleep c since d => rw [hwt] at hd; exact hd.elim
  cases ha : a.isStream i with
  | false =>
    rw [stream_unmoved (now := now) hr ha, Option.some.injEq] at hr'
    refine .inr (.inl (stay _ ?_ hr'.symm))
    simp only [onTimeNext, ha, Bool.false_and]
    exact Int.min_le_left _ _
  | true =>
    cases a with
    | stream n b =>
      have hn : n = i := by simpa [StAct.isStream] using ha
      subst hn
      rcases onTime_own_cases (now := now) (b := b) hr with ⟨hs, ⟨j, g, gx, -⟩ | ⟨w, g, hw⟩⟩ | ⟨hs, g⟩
      · exact .inl ⟨j, g, gx⟩
      · rw [g, Option.some.injEq] at hr'
        subst hr'
        simp only [onTimeNext, ha, hs, Bool.and_self, if_true]
        rw [onTime_movesFrom_eq g]
        cases hwt : r.wait with
        | ready => rw [hwt] at hd; exact hd.elim
        | looked f =>
          rw [hwt] at hw hd
          rw [hw.1]
          refine .inr (.inl ⟨?_, delay_le _ _⟩)
          simp only [dozing, Time, Delta] at *
          omega
        | decided c d =>
          rw [hwt] at hw hd
          rw [hw.1]
          refine .inr (.inr ?_)
          have h1 := hd.1
          have h2 := hd.2
          simp only [onTimeNear]
          split <;> simp only [Time, Delta, ms] at * <;> omega
        | asleep c since d => rw [hwt] at hd; exact hd.elim
      · rw [g, hr, Option.some.injEq] at hr'
        refine .inr (.inl (stay _ ?_ hr'.symm))
        simp only [onTimeNext, hs, Bool.and_false]
        exact Int.min_le_left _ _
    | client a => cases ha
    | subscribe x => cases ha

theorem dozing_le {ε : Delta} {t₁ m : Time} {w : Wait} (hε : 0 ≤ ε) (h : dozing ε t₁ m w) : m ≤ t₁ + ε := by
  cases w with
  | looked f => simp only [dozing, Time, Delta] at *; omega
  | decided c d => exact h.1
  | ready => exact h.elim
  | asleep c since d => exact h.elim

theorem dozing_mono {ε : Delta} {t₁ m m' : Time} {w : Wait} (h : dozing ε t₁ m w) (hm : m' ≤ m) : dozing ε t₁ m' w := by
  cases w with
  | looked f => exact Int.le_trans hm h
  | decided c d => exact ⟨Int.le_trans hm h.1, h.2⟩
  | ready => exact h.elim
  | asleep c since d => exact h.elim

/-- No stream ever sleeps for longer. -/
theorem waitsShort_run (paused : Bool) (l : List TStAct) {i : Nat} {r : Reader}
    (h : ((Streams.init paused).run l).readers[i]? = some r) : waitsShort r.wait := by
  have key : ∀ (s : Streams), (∀ (i : Nat) (r : Reader), s.readers[i]? = some r → waitsShort r.wait) →
      ∀ (i : Nat) (r : Reader), (s.run l).readers[i]? = some r → waitsShort r.wait := by
    clear h
    induction l with
    | nil => exact fun s h => h
    | cons a l ih =>
      intro s hs
      refine ih _ fun i r hr => ?_
      cases hi : s.readers[i]? with
      | some r₀ => exact waitsShort_step hi (hs i r₀ hi) hr
      | none =>
        obtain ⟨now, a⟩ := a
        cases a with
        | client a => exact absurd hr (by rw [show (s.step now (.client a)).2.readers = s.readers from rfl, hi]; simp)
        | subscribe x =>
          simp only [Streams.step] at hr
          have hle : s.readers.length ≤ i := List.getElem?_eq_none_iff.mp hi
          rw [List.getElem?_append_right hle] at hr
          cases hd : i - s.readers.length with
          | zero => rw [hd] at hr; simp at hr; subst hr; trivial
          | succ d => rw [hd] at hr; simp at hr
        | stream n b =>
          exfalso
          have hlen : (s.step now (.stream n b)).2.readers.length = s.readers.length := by
            simp only [Streams.step]
            split
            · rfl
            · simp only [Streams.streamStep]
              repeat' split
              all_goals simp [Streams.setWait, Streams.setMem]
          have h1 := (List.getElem?_eq_some_iff.mp hr).1
          have h2 := List.getElem?_eq_none_iff.mp hi
          simp only at h1
          omega
  exact key _ (by simp [Streams.init]) i r h

/-- The part of the schedule in which the job is waiting. -/
private theorem polls {ε : Delta} (hε : 0 ≤ ε) {s : Streams} (H : StreamInv s) {i : Nat} {r : Reader} {m t t₁ T' : Time} {k : KeyedJob}
    (as : List TStAct) (hr : s.readers[i]? = some r) (hl : onTimeLag ε m t (s.conc.mem.hasMessage r.sub) r.wait)
    (hn : dozing ε t₁ m r.wait ∨ onTimeNear ε k.job.scheduledAt T' m (s.conc.mem.hasMessage r.sub) r.wait)
    (hT : k.job.scheduledAt ≤ T') (hT' : t₁ + 30000000000 + 2 * ε ≤ T')
    (hc : (t :: as.map (·.now)).Pairwise (· ≤ ·)) (hp : PromptStream ε i m s as)
    (hk : k ∈ s.conc.mem.jobs) (hw : k.job.available) (hx : k.job.executor = r.executor)
    {b : TStAct} (hb : b ∈ as) (hlate : T' + 15 * ms + 6 * ε < b.now) :
    ∃ as₁ a as₂, as = as₁ ++ a :: as₂ ∧ a.now ≤ T' + 15 * ms + 6 * ε ∧
      ((∃ j, ((s.run as₁).step a.now a.act).1 = .returned i j ∧ j.executor = r.executor) ∨
        k ∉ ((s.run as₁).step a.now a.act).2.conc.mem.jobs) := by
  induction as generalizing s r m t with
  | nil => simp at hb
  | cons a as ih =>
    have hpa : a.now ≤ m + ε := hp.1
    have hD : a.now ≤ T' + 15 * ms + 6 * ε := by
      rcases hn with hn | hn
      · have := dozing_le hε hn
        simp only [Time, Delta, ms] at *; omega
      · have := onTimeNear_le hε hn
        simp only [Time, Delta, ms] at *; omega
    rw [List.map_cons] at hc
    have hta : t ≤ a.now := List.rel_of_pairwise_cons hc (by simp)
    obtain ⟨r', h1, h2, h3, h4⟩ := onTimeLag_step hr hl hta hpa
    have hstep : (∃ j, (s.step a.now a.act).1 = .returned i j ∧ j.executor = r.executor) ∨
        dozing ε t₁ (onTimeNext i m s a) r'.wait ∨
        onTimeNear ε k.job.scheduledAt T' (onTimeNext i m s a) ((s.step a.now a.act).2.conc.mem.hasMessage r.sub) r'.wait := by
      rcases hn with hn | hn
      · exact dozing_step hε hr h1 hn hpa hT'
      · exact (onTimeNear_step hε H hr hl hn hT hpa hk hw hx).imp id fun h => .inr (h r' h1)
    rcases hstep with h | h
    · exact ⟨[], a, as, rfl, hD, .inl h⟩
    · by_cases hk' : k ∈ (s.step a.now a.act).2.conc.mem.jobs
      · have hb' : b ∈ as := by
          rcases List.mem_cons.mp hb with h' | h'
          · subst h'; exact (Int.not_le.mpr hlate hD).elim
          · exact h'
        obtain ⟨as₁, c, as₂, g1, g2, g3⟩ := ih (streamInv_step H a.now a.act) h1 h4 (h2 ▸ h)
          (List.Pairwise.of_cons hc) hp.2 hk' (hx.trans h3.symm) hb'
        refine ⟨a :: as₁, c, as₂, by rw [g1]; rfl, g2, ?_⟩
        rw [h3] at g3
        exact g3
      · exact ⟨[], a, as, rfl, hD, .inr hk'⟩

/-- The part before. -/
private theorem polls_before {ε : Delta} {s : Streams} {i : Nat} {r : Reader} {m t u : Time} (as bs : List TStAct)
    (hr : s.readers[i]? = some r) (hl : onTimeLag ε m t (s.conc.mem.hasMessage r.sub) r.wait) (hs : waitsShort r.wait)
    (hc : (t :: (as.map (·.now) ++ u :: bs.map (·.now))).Pairwise (· ≤ ·)) (hp : PromptStream ε i m s (as ++ bs)) :
    ∃ r' m' t', (s.run as).readers[i]? = some r' ∧ r'.executor = r.executor ∧ waitsShort r'.wait ∧
      onTimeLag ε m' t' ((s.run as).conc.mem.hasMessage r'.sub) r'.wait ∧
      (t' :: u :: bs.map (·.now)).Pairwise (· ≤ ·) ∧ PromptStream ε i m' (s.run as) bs := by
  induction as generalizing s r m t with
  | nil => exact ⟨r, m, t, hr, rfl, hs, hl, hc, hp⟩
  | cons a as ih =>
    rw [List.map_cons, List.cons_append] at hc
    obtain ⟨r', h1, -, h3, h4⟩ := onTimeLag_step hr hl (List.rel_of_pairwise_cons hc (by simp)) hp.1
    obtain ⟨q, m', t', g1, g2, g3⟩ := ih h1 h4 (waitsShort_step hr hs h1) (List.Pairwise.of_cons hc) hp.2
    exact ⟨q, m', t', g1, g2.trans h3, g3⟩

private theorem run_app (s : Streams) (l₁ l₂ : List TStAct) : s.run (l₁ ++ l₂) = (s.run l₁).run l₂ := by
  induction l₁ generalizing s with
  | nil => rfl
  | cons a l ih => exact ih _

/-- **C134, in memory.** The backend may be paused. A stream is made at `t₀`, and from then on makes
each of its steps within `ε` of when it first can; clocks do not run backwards. At `t₁` a job of its
executor waits, whether or not anybody has been told. Then by 30.015 s and eight times `ε` after `t₁`
– or by 15 ms and six times `ε` after the job is due, if that is later – the stream has returned a
job, or the job waits no longer. -/
theorem C134_in_memory {ε : Delta} (hε : 0 ≤ ε) (paused : Bool) (p as bs : List TStAct) (x : String) (i : Nat) (t₀ t₁ : Time)
    (k : KeyedJob) (hi : i = ((Streams.init paused).run p).readers.length)
    (hc : (t₀ :: (as.map (·.now) ++ t₁ :: bs.map (·.now))).Pairwise (· ≤ ·))
    (hp : PromptStream ε i t₀ ((Streams.init paused).run (p ++ [⟨t₀, .subscribe x⟩])) (as ++ bs))
    (hk : k ∈ ((Streams.init paused).run (p ++ ⟨t₀, .subscribe x⟩ :: as)).conc.mem.jobs)
    (hw : k.job.status = .scheduled ∨ k.job.status = .retryable) (hx : k.job.executor = x)
    (hlate : ∃ b ∈ bs, max k.job.scheduledAt (t₁ + 30000000000 + 2 * ε) + 15000000 + 6 * ε < b.now) :
    ∃ bs₁ b bs₂, bs = bs₁ ++ b :: bs₂ ∧ b.now ≤ max k.job.scheduledAt (t₁ + 30000000000 + 2 * ε) + 15000000 + 6 * ε ∧
      ((∃ j, (((Streams.init paused).run (p ++ ⟨t₀, .subscribe x⟩ :: as ++ bs₁)).step b.now b.act).1 = .returned i j ∧
          j.executor = x) ∨
        k ∉ ((Streams.init paused).run (p ++ ⟨t₀, .subscribe x⟩ :: as ++ bs₁ ++ [b])).conc.mem.jobs) := by
  have e1 : ((Streams.init paused).run (p ++ ⟨t₀, .subscribe x⟩ :: as)) =
      ((Streams.init paused).run (p ++ [⟨t₀, .subscribe x⟩])).run as := by
    rw [← run_app]; simp
  have hr : ((Streams.init paused).run (p ++ [⟨t₀, .subscribe x⟩])).readers[i]? =
      some { sub := ((Streams.init paused).run p).conc.mem.subs.length, executor := x, wait := .ready } := by
    rw [run_app, hi]
    simp [Streams.run, Streams.step]
  obtain ⟨r, m, t, h1, h2, hshort, h3, h4, h5⟩ := polls_before (ε := ε) (m := t₀) as bs hr (Int.le_refl _) trivial hc hp
  simp only at h2
  rw [← e1] at h1 h3 h5
  generalize hs : (Streams.init paused).run (p ++ ⟨t₀, .subscribe x⟩ :: as) = s at *
  have H : StreamInv s := by rw [← hs]; exact streamInv_run (streamInv_init paused) _
  have ht : t ≤ t₁ := List.rel_of_pairwise_cons h4 (by simp)
  have hmax1 : k.job.scheduledAt ≤ max k.job.scheduledAt (t₁ + 30000000000 + 2 * ε) := Int.le_max_left _ _
  have hmax2 : t₁ + 30000000000 + 2 * ε ≤ max k.job.scheduledAt (t₁ + 30000000000 + 2 * ε) := Int.le_max_right _ _
  generalize max k.job.scheduledAt (t₁ + 30000000000 + 2 * ε) = T' at *
  have hn : dozing ε t₁ m r.wait ∨ onTimeNear ε k.job.scheduledAt T' m (s.conc.mem.hasMessage r.sub) r.wait := by
    cases hwt : r.wait with
    | ready =>
      rw [hwt] at h3
      right
      simp only [onTimeNear, onTimeLag, Time, Delta, ms] at *; omega
    | looked f =>
      rw [hwt] at h3
      exact .inl (Int.le_trans h3 ht)
    | decided c d =>
      rw [hwt] at h3 hshort
      refine .inl ⟨?_, hshort⟩
      simp only [onTimeLag, Time, Delta] at *; omega
    | asleep c since d =>
      rw [hwt] at h3 hshort
      right
      simp only [onTimeLag, onTimeNear, waitsShort] at *
      obtain ⟨g1, g2, g3, g4⟩ := h3
      simp only [Time, Delta, ms] at *; omega
  obtain ⟨b, hb, hlate⟩ := hlate
  have h4' : (t :: bs.map (·.now)).Pairwise (· ≤ ·) := by
    rw [List.pairwise_cons] at h4 ⊢
    exact ⟨fun a ha => h4.1 a (List.mem_cons_of_mem _ ha), List.Pairwise.of_cons h4.2⟩
  obtain ⟨bs₁, a, bs₂, g1, g2, g3⟩ := polls hε H bs h1 h3 hn hmax1 hmax2 h4' h5 hk hw (hx.trans h2.symm) hb
    (by simp only [Time, Delta, ms] at *; omega)
  refine ⟨bs₁, a, bs₂, g1, by simp only [Time, Delta, ms] at *; omega, ?_⟩
  have e2 : (Streams.init paused).run (p ++ ⟨t₀, .subscribe x⟩ :: as ++ bs₁) = s.run bs₁ := by rw [run_app, hs]
  have e3 : (Streams.init paused).run (p ++ ⟨t₀, .subscribe x⟩ :: as ++ bs₁ ++ [a]) = ((s.run bs₁).step a.now a.act).2 := by
    rw [run_app, e2]; rfl
  rw [e2, e3]
  rw [h2] at g3
  exact g3

/-! ## On Postgres -/

/-- Stream `i`, which can make its next step from `m` on, makes that step and every later one within
`ε` of when it first can. Nothing at all happens later than that without it. The listener is left
alone. -/
def PromptReader (hash : HashFn) (parses : Parses) (ε : Delta) (i : Nat) : Time → PgNet → List TNetAct → Prop
  | _, _, [] => True
  | m, s, a :: as =>
    a.now ≤ m + ε ∧
    PromptReader hash parses ε i
      (if a.act.isStream i && (s.step hash parses a.tie a.now a.act).1.isSomething then
        (s.step hash parses a.tie a.now a.act).2.movesFrom i a.now
       else min m ((s.step hash parses a.tie a.now a.act).2.movesFrom i a.now))
      (s.step hash parses a.tie a.now a.act).2 as

instance PromptReader.dec (hash : HashFn) (parses : Parses) (ε : Delta) (i : Nat) : ∀ (m : Time) (s : PgNet) (as : List TNetAct),
    Decidable (PromptReader hash parses ε i m s as)
  | _, _, [] => .isTrue trivial
  | _, s, a :: as => @instDecidableAnd _ _ _ (PromptReader.dec hash parses ε i _ (s.step hash parses a.tie a.now a.act).2 as)

def pgWaitsShort : PgWait → Prop
  | .decided _ d => d ≤ 30000000000
  | .loading _ d _ => d ≤ 30000000000
  | .asleep _ _ d => d ≤ 30000000000
  | _ => True

def pgDozing (ε : Delta) (t₁ m : Time) : PgWait → Prop
  | .looked _ => m ≤ t₁
  | .decided _ d => m ≤ t₁ + ε ∧ d ≤ 30000000000
  | _ => False

theorem pgWaitsShort_step {hash : HashFn} {tie : Int → Nat} {now : Time} {i : Nat} {own : Bool} {c c' : PgConc} {ev : NetEv}
    {r r' : PgReader} (hs : NetSeen hash tie now i own c c' ev r r') (h : pgWaitsShort r.wait) : pgWaitsShort r'.wait := by
  cases hs with
  | still q e => subst e; exact h
  | failed e => subst e; trivial
  | returned jb e => subst e; trivial
  | ready hw e => subst e; trivial
  | looked f hw e => subst e; exact delay_le _ _
  | opens t d hw hd e => subst e; rw [hw] at h; exact h
  | sleeps t d hw hd e => subst e; rw [hw] at h; exact h
  | goesOn t d k hw hk e => subst e; exact h
  | gotNone t d k hw hk e => subst e; rw [hw] at h; exact h
  | wakes t since d q hw e => subst e; trivial

theorem pgDozing_le {ε : Delta} {t₁ m : Time} {w : PgWait} (hε : 0 ≤ ε) (h : pgDozing ε t₁ m w) : m ≤ t₁ + ε := by
  cases w with
  | looked f => simp only [pgDozing, Time, Delta] at *; omega
  | decided c d => exact h.1
  | _ => exact h.elim

private theorem prompt_move (own : Bool) (m mf now : Time) (r : PgReader) :
    NextMove 0 own m mf now r (if own then mf else min m mf) := by
  cases own
  · exact ⟨fun _ => Int.min_le_left _ _, .inl (Int.min_le_right _ _)⟩
  · exact ⟨nofun, .inl (Int.le_refl _)⟩

theorem pgDozing_step {hash : HashFn} {tie : Int → Nat} {ε D : Delta} (hε : 0 ≤ ε) (hD : 0 ≤ D) {heard : Prop} {i : Nat} {own : Bool} {c c' : PgConc} {ev : NetEv}
    {r r' : PgReader} {m m' t₁ now T' : Time} {s' : PgNet} {j : Row}
    (hs : NetSeen hash tie now i own c c' ev r r') (hr' : s'.readers[i]? = some r')
    (hd : pgDozing ε t₁ m r.wait) (hm : now ≤ m + ε) (hT' : t₁ + 30000000000 + 2 * ε ≤ T')
    (hm' : NextMove D own m (s'.movesFrom i now) now r' m') :
    (∃ jb, ev = .returned i jb) ∨ ev = .failed i ∨ pgDozing ε t₁ m' r'.wait ∨ pgNear ε D j T' m' heard c' r' := by
  have hmε := pgDozing_le hε hd
  rw [pgMovesFrom_eq hr'] at hm'
  obtain ⟨hm₁, hm₂⟩ := hm'
  have moves : r'.wait ≠ .ready → m' ≤ (match r'.wait with
      | .asleep _ since delay => if r'.queue = [] then since + delay else now
      | _ => now) := fun h => hm₂.resolve_right fun h' => h h'.1
  cases hs with
  | returned jb h he hc => exact .inl ⟨jb, he⟩
  | failed h he hc => exact .inr (.inl he)
  | still q h ho hc =>
    subst h ho
    replace hm₁ := hm₁ rfl
    refine .inr (.inr (.inl ?_))
    simp only
    cases hwt : r.wait with
    | looked f => rw [hwt] at hd; exact Int.le_trans hm₁ hd
    | decided c d => rw [hwt] at hd; exact ⟨Int.le_trans hm₁ hd.1, hd.2⟩
    | _ => rw [hwt] at hd; exact hd.elim
  | ready hw h ho hc => rw [hw] at hd; exact hd.elim
  | looked f hw h ho hc =>
    subst h
    rw [hw] at hd
    have hmv := moves (by simp)
    refine .inr (.inr (.inl ⟨?_, delay_le _ _⟩))
    simp only [pgDozing, Time, Delta] at *; omega
  | opens t d hw hdd h ho hc =>
    subst h hc
    have hmv := moves (by simp)
    refine .inr (.inr (.inr ⟨.handout r.executor, by simp [PgConc.step], ?_⟩))
    simp only [pgStage, Time, Delta, ms] at *; omega
  | sleeps t d hw hdd h ho hc =>
    subst h
    rw [hw] at hd
    have hmv := moves (by simp)
    refine .inr (.inr (.inr ?_))
    simp only [pgNear]
    left
    have := hd.2
    simp only at hmv
    split at hmv <;> simp only [Time, Delta, ms] at * <;> omega
  | goesOn t d k hw hk h ho hc => rw [hw] at hd; exact hd.elim
  | gotNone t d k hw hk h ho hc => rw [hw] at hd; exact hd.elim
  | wakes t since d q hw h ho hc => rw [hw] at hd; exact hd.elim

/-- The part of the schedule in which the row waits. -/
private theorem pg_polls {hash : HashFn} {parses : Parses} {ε : Delta} (hε : 0 ≤ ε) {s : PgNet} (H : PgInv s.conc) {i : Nat}
    {r : PgReader} {m t t₁ T' : Time} {j : Row}
    (as : List TNetAct) (hr : s.readers[i]? = some r) (hl : pgLag ε 0 m t s.conc r)
    (hn : pgDozing ε t₁ m r.wait ∨ pgNear ε 0 j T' m False s.conc r)
    (hT : j.scheduledAt ≤ T') (hT' : t₁ + 30000000000 + 2 * ε ≤ T')
    (hc : (t :: as.map (·.now)).Pairwise (· ≤ ·)) (hp : PromptReader hash parses ε i m s as)
    (hj : j ∈ s.conc.pg.rows) (hw : j.Waiting) (hx : j.executor = r.executor)
    {b : TNetAct} (hb : b ∈ as) (hlate : T' + 15 * ms + 10 * ε < b.now) :
    ∃ as₁ a as₂, as = as₁ ++ a :: as₂ ∧ a.now ≤ T' + 15 * ms + 10 * ε ∧
      ((∃ jb, ((s.run hash parses as₁).step hash parses a.tie a.now a.act).1 = .returned i jb) ∨
        ((s.run hash parses as₁).step hash parses a.tie a.now a.act).1 = .failed i ∨
        (s.run hash parses as₁).otherHolds i j.id ∨
        j ∉ ((s.run hash parses as₁).step hash parses a.tie a.now a.act).2.conc.pg.rows) := by
  induction as generalizing s r m t with
  | nil => simp at hb
  | cons a as ih =>
    obtain ⟨hpa, hp⟩ := hp
    obtain ⟨r', hr', hs⟩ := net_seen hash parses a.tie a.now a.act hr
    obtain ⟨-, hk2⟩ := net_seen_kept hs
    have hD : a.now ≤ T' + 15 * ms + 10 * ε := by
      rcases hn with hn | hn
      · have := pgDozing_le hε hn
        simp only [Time, Delta, ms] at *; omega
      · rcases pgNear_le hε (Int.le_refl 0) hn with h | h
        · simp only [Time, Delta, ms] at *; omega
        · exact h.elim
    rw [List.map_cons] at hc
    have hta : t ≤ a.now := List.rel_of_pairwise_cons hc (by simp)
    by_cases hlock : s.otherHolds i j.id
    · exact ⟨[], a, as, rfl, hD, .inr (.inr (.inl hlock))⟩
    have hstep : (∃ jb, (s.step hash parses a.tie a.now a.act).1 = .returned i jb) ∨
        (s.step hash parses a.tie a.now a.act).1 = .failed i ∨
        (pgDozing ε t₁ (if a.act.isStream i && (s.step hash parses a.tie a.now a.act).1.isSomething then
            (s.step hash parses a.tie a.now a.act).2.movesFrom i a.now
          else min m ((s.step hash parses a.tie a.now a.act).2.movesFrom i a.now)) r'.wait ∨
         pgNear ε 0 j T' (if a.act.isStream i && (s.step hash parses a.tie a.now a.act).1.isSomething then
            (s.step hash parses a.tie a.now a.act).2.movesFrom i a.now
          else min m ((s.step hash parses a.tie a.now a.act).2.movesFrom i a.now)) False
          (s.step hash parses a.tie a.now a.act).2.conc r') := by
      rcases hn with hn | hn
      · exact pgDozing_step hε (Int.le_refl 0) hs hr' hn hpa hT' (prompt_move _ _ _ _ _)
      · exact (pgNear_step hε (Int.le_refl 0) H hs hr hr' hl hn hta hpa (prompt_move _ _ _ _ _) False.elim hj hw hx hT hlock).imp id
          fun h => h.imp id .inr
    rcases hstep with h | h | h
    · exact ⟨[], a, as, rfl, hD, .inl h⟩
    · exact ⟨[], a, as, rfl, hD, .inr (.inl h)⟩
    · by_cases hj' : j ∈ (s.step hash parses a.tie a.now a.act).2.conc.pg.rows
      · have hb' : b ∈ as := by
          rcases List.mem_cons.mp hb with h' | h'
          · subst h'; exact (Int.not_le.mpr hlate hD).elim
          · exact h'
        obtain ⟨as₁, c, as₂, e1, e2, e3⟩ := ih (pgnet_inv_step H a.tie a.now a.act) hr'
          (pgLag_step (Int.le_refl 0) hs hr' hl hta hpa (prompt_move _ _ _ _ _)) h (List.Pairwise.of_cons hc) hp hj'
          (hx.trans hk2.symm) hb'
        exact ⟨a :: as₁, c, as₂, by rw [e1]; rfl, e2, e3⟩
      · exact ⟨[], a, as, rfl, hD, .inr (.inr (.inr hj'))⟩

/-- The part before. -/
private theorem pg_polls_before {hash : HashFn} {parses : Parses} {ε : Delta} {s : PgNet} {i : Nat} {r : PgReader} {m t w : Time}
    (as bs : List TNetAct) (hr : s.readers[i]? = some r) (hl : pgLag ε 0 m t s.conc r) (hsh : pgWaitsShort r.wait)
    (hc : (t :: (as.map (·.now) ++ w :: bs.map (·.now))).Pairwise (· ≤ ·)) (hp : PromptReader hash parses ε i m s (as ++ bs)) :
    ∃ r' m' t', (s.run hash parses as).readers[i]? = some r' ∧ r'.executor = r.executor ∧ pgWaitsShort r'.wait ∧
      pgLag ε 0 m' t' (s.run hash parses as).conc r' ∧
      (t' :: w :: bs.map (·.now)).Pairwise (· ≤ ·) ∧ PromptReader hash parses ε i m' (s.run hash parses as) bs := by
  induction as generalizing s r m t with
  | nil => exact ⟨r, m, t, hr, rfl, hsh, hl, hc, hp⟩
  | cons a as ih =>
    obtain ⟨hpa, hp⟩ := hp
    obtain ⟨r', hr', hs⟩ := net_seen hash parses a.tie a.now a.act hr
    obtain ⟨-, hk2⟩ := net_seen_kept hs
    rw [List.map_cons, List.cons_append] at hc
    have hta : t ≤ a.now := List.rel_of_pairwise_cons hc (by simp)
    obtain ⟨q, m', t', e1, e2, e3⟩ := ih hr' (pgLag_step (Int.le_refl 0) hs hr' hl hta hpa (prompt_move _ _ _ _ _))
      (pgWaitsShort_step hs hsh) (List.Pairwise.of_cons hc) hp
    exact ⟨q, m', t', e1, e2.trans hk2, e3⟩

/-- **C134, on Postgres.** A stream is made at `t₀` on any node; its listener may not run, may end,
lose notifications and take its time. From then on the stream makes each of its steps within `ε` of
when it first can; clocks do not run backwards. At `t₁` a row of the stream's executor waits. Then by
30.015 s and twelve times `ε` after `t₁` – or by 15 ms and ten times `ε` after the row is due, if
that is later – the stream has returned a job or an error, or another session has locked the row, or
the row has changed (it has been handed out, say) or is gone. -/
theorem C134_on_postgres (hash : HashFn) (parses : Parses) {ε : Delta} (hε : 0 ≤ ε) (p as bs : List TNetAct)
    (x : String) (i n : Nat) (t₀ t₁ D : Time) (tie : Int → Nat) (j : Row)
    (hi : i = (PgNet.run hash parses {} p).readers.length)
    (hc : (t₀ :: (as.map (·.now) ++ t₁ :: bs.map (·.now))).Pairwise (· ≤ ·))
    (hp : PromptReader hash parses ε i t₀ (PgNet.run hash parses {} (p ++ [⟨t₀, tie, .subscribe n x⟩])) (as ++ bs))
    (hj : j ∈ (PgNet.run hash parses {} (p ++ ⟨t₀, tie, .subscribe n x⟩ :: as)).conc.pg.rows)
    (hw : j.status = .scheduled ∨ j.status = .retryable) (hx : j.executor = x)
    (hD : D = max j.scheduledAt (t₁ + 30000000000 + 2 * ε) + 15000000 + 10 * ε)
    (hlate : ∃ b ∈ bs, D < b.now) :
    ∃ bs₁ b bs₂, bs = bs₁ ++ b :: bs₂ ∧ b.now ≤ D ∧
      let s := PgNet.run hash parses {} (p ++ ⟨t₀, tie, .subscribe n x⟩ :: as ++ bs₁)
      ((∃ jb, (s.step hash parses b.tie b.now b.act).1 = .returned i jb) ∨
        (s.step hash parses b.tie b.now b.act).1 = .failed i ∨
        s.otherHolds i j.id ∨
        j ∉ (s.step hash parses b.tie b.now b.act).2.conc.pg.rows) := by
  have e1 : PgNet.run hash parses {} (p ++ ⟨t₀, tie, .subscribe n x⟩ :: as) =
      (PgNet.run hash parses {} (p ++ [⟨t₀, tie, .subscribe n x⟩])).run hash parses as := by
    rw [← pgnet_run_append]; simp
  have e2 : ∀ l, PgNet.run hash parses {} (p ++ ⟨t₀, tie, .subscribe n x⟩ :: as ++ l) =
      (PgNet.run hash parses {} (p ++ ⟨t₀, tie, .subscribe n x⟩ :: as)).run hash parses l := fun l => pgnet_run_append _ l
  have hr₀ : (PgNet.run hash parses {} (p ++ [⟨t₀, tie, .subscribe n x⟩])).readers[i]? = some { node := n, executor := x } := by
    rw [pgnet_run_append, hi]
    simp [PgNet.run, PgNet.step]
  obtain ⟨r, m, t, g3, g4, hsh, g6, g8, g9⟩ := pg_polls_before (ε := ε) (m := t₀) as bs hr₀
    (show t₀ ≤ t₀ + 0 by simp only [Time] at *; omega) trivial hc hp
  rw [← e1] at g3 g6 g9
  simp only at g4
  have hT : j.scheduledAt ≤ max j.scheduledAt (t₁ + 30000000000 + 2 * ε) := Int.le_max_left _ _
  have hT' : t₁ + 30000000000 + 2 * ε ≤ max j.scheduledAt (t₁ + 30000000000 + 2 * ε) := Int.le_max_right _ _
  generalize max j.scheduledAt (t₁ + 30000000000 + 2 * ε) = T' at *
  have ht : t ≤ t₁ := List.rel_of_pairwise_cons g8 (by simp)
  have htT : t ≤ T' := by simp only [Time, Delta] at *; omega
  have hn : pgDozing ε t₁ m r.wait ∨
      pgNear ε 0 j T' m False (PgNet.run hash parses {} (p ++ ⟨t₀, tie, .subscribe n x⟩ :: as)).conc r := by
    cases hwt : r.wait with
    | ready => exact .inr (pgNear_start hε (Int.le_refl 0) g6 htT hT (.inr (by rw [hwt]; trivial)))
    | looked f =>
      simp only [pgLag, hwt] at g6
      exact .inl (Int.le_trans g6 ht)
    | decided c d =>
      simp only [pgLag, hwt] at g6
      rw [hwt] at hsh
      refine .inl ⟨?_, hsh⟩
      simp only [Time, Delta] at *; omega
    | loading c d k =>
      refine .inr (pgNear_start hε (Int.le_refl 0) g6 htT hT (.inr ?_))
      simp only [pgLag, hwt] at g6
      rw [hwt]
      exact .inr g6.2.2.1
    | asleep c since d =>
      simp only [pgLag, hwt] at g6
      rw [hwt] at hsh
      right
      simp only [pgNear, hwt]
      left
      obtain ⟨k4, k5, k6, k7⟩ := g6
      simp only [pgWaitsShort, Time, Delta, ms] at *; omega
  obtain ⟨b, hb, hlate⟩ := hlate
  have g8' : (t :: bs.map (·.now)).Pairwise (· ≤ ·) := by
    rw [List.pairwise_cons] at g8 ⊢
    exact ⟨fun a ha => g8.1 a (List.mem_cons_of_mem _ ha), List.Pairwise.of_cons g8.2⟩
  obtain ⟨bs₁, a, bs₂, q1, q2, q3⟩ := pg_polls hε (pgnet_reach_inv _) bs g3 g6 hn hT hT' g8' g9 hj hw (hx.trans g4.symm) hb
    (by simp only [Time, Delta, ms] at *; omega)
  refine ⟨bs₁, a, bs₂, q1, by simp only [Time, Delta, ms] at *; omega, ?_⟩
  intro s
  have : s = (PgNet.run hash parses {} (p ++ ⟨t₀, tie, .subscribe n x⟩ :: as)).run hash parses bs₁ := e2 bs₁
  rw [this]
  exact q3

/-! ## Examples -/

/-- On a paused backend a stream made at `0` goes to sleep; at 1 s a job due at 7 s is enqueued. -/
def pausedStart : List TStAct :=
  [⟨0, .stream 0 false⟩, ⟨ms, .stream 0 false⟩, ⟨2 * ms, .stream 0 false⟩,
   ⟨1 * sec, .client (.start { sampleEnq with scheduledAt := 7 * sec })⟩,
   ⟨1 * sec, .client (.advance 0)⟩, ⟨1 * sec, .client (.advance 0)⟩, ⟨1 * sec, .client (.advance 0)⟩]

/-- It wakes after half a minute, returns the job and sleeps again. -/
def pausedRest : List TStAct :=
  [⟨30 * sec + 3 * ms, .stream 0 false⟩, ⟨30 * sec + 4 * ms, .stream 0 false⟩, ⟨30 * sec + 5 * ms, .stream 0 false⟩,
   ⟨30 * sec + 6 * ms, .stream 0 false⟩, ⟨30 * sec + 7 * ms, .stream 0 false⟩, ⟨30 * sec + 8 * ms, .stream 0 false⟩,
   ⟨30 * sec + 9 * ms, .stream 0 false⟩, ⟨32 * sec, .client (.op (.query (.statusEqual .complete)))⟩]

/-- The hypotheses of `C134_in_memory` are met, and the job is returned 30.006 s after the start. -/
example : ((0 : Time) :: (pausedStart.map (·.now) ++ 1 * sec :: pausedRest.map (·.now))).Pairwise (· ≤ ·) ∧
    PromptStream ms 0 0 ((Streams.init true).run [⟨0, .subscribe "mail"⟩]) (pausedStart ++ pausedRest) ∧
    (∃ k ∈ ((Streams.init true).run (⟨0, .subscribe "mail"⟩ :: pausedStart)).conc.mem.jobs,
      k.job.status = .scheduled ∧ k.job.executor = "mail" ∧
      ∃ b ∈ pausedRest, max k.job.scheduledAt (1 * sec + 30000000000 + 2 * ms) + 15000000 + 6 * ms < b.now) ∧
    ((((Streams.init true).run (⟨0, .subscribe "mail"⟩ :: pausedStart)).events pausedRest).findIdx? fun e => e.2.handsOut 0) = some 3 := by
  decide +kernel

/-- The listener of the node fails; a stream goes to sleep; at 1 s a job due at 7 s is enqueued. -/
def deafStart : List TNetAct :=
  [netAct 0 (.fail 0), netAct 0 (.stream 0 false), netAct ms (.stream 0 false), netAct (2 * ms) (.stream 0 false),
   netAct (1 * sec) (.db (.plain { sampleEnq with scheduledAt := 7 * sec }))]

/-- The stream wakes after half a minute and hands the job out. -/
def deafRest : List TNetAct :=
  [netAct (30 * sec + 3 * ms) (.stream 0 true), netAct (30 * sec + 4 * ms) (.stream 0 false),
   netAct (30 * sec + 5 * ms) (.stream 0 false), netAct (30 * sec + 6 * ms) (.stream 0 false),
   netAct (30 * sec + 7 * ms) (.stream 0 false), netAct (30 * sec + 8 * ms) (.stream 0 false),
   netAct (30 * sec + 9 * ms) (.stream 0 false), netAct (30 * sec + 10 * ms) (.stream 0 false),
   netAct (30 * sec + 11 * ms) (.stream 0 false), netAct (30 * sec + 12 * ms) (.stream 0 false),
   netAct (30 * sec + 13 * ms) (.stream 0 false), netAct (32 * sec) .connect]

/-- The hypotheses of `C134_on_postgres` are met with a listener that has ended, and the job is
returned. -/
example : ((0 : Time) :: (deafStart.map (·.now) ++ 1 * sec :: deafRest.map (·.now))).Pairwise (· ≤ ·) ∧
    PromptReader sampleHash sampleParses ms 0 0 (PgNet.run sampleHash sampleParses {} [netAct 0 .connect, netAct 0 (.subscribe 0 "mail")])
      (deafStart ++ deafRest) ∧
    (PgNet.run sampleHash sampleParses {} (netAct 0 .connect :: netAct 0 (.subscribe 0 "mail") :: deafStart)).nodes.map
      (·.listening) = [false] ∧
    (∃ j ∈ (PgNet.run sampleHash sampleParses {} (netAct 0 .connect :: netAct 0 (.subscribe 0 "mail") :: deafStart)).conc.pg.rows,
      j.status = .scheduled ∧ j.executor = "mail" ∧
      ∃ b ∈ deafRest, max j.scheduledAt (1 * sec + 30000000000 + 2 * ms) + 15000000 + 10 * ms < b.now) ∧
    (((PgNet.run sampleHash sampleParses {} (netAct 0 .connect :: netAct 0 (.subscribe 0 "mail") :: deafStart)).trace
      sampleHash sampleParses deafRest).any fun e => match e with | .returned 0 j => j.id == 1 | _ => false) = true := by
  decide +kernel

end Rexecutor
