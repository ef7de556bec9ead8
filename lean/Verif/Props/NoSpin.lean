import Verif.Props.PgStream
import Verif.Props.Stream
import Verif.Props.StreamProgress

/-!
# C121: a waiting stream does not poll in a busy loop
-/

namespace Rexecutor

/-- What lies between two looks of a stream at `ta` and `tb`, the first of which found that the
earliest available job is due at `found`: thirty seconds if there was none; fifteen milliseconds if
its time had passed; if not, the time until then (not more than thirty seconds), or fifteen
milliseconds if it passed while the stream was reading the clock. -/
def WaitedBetween (ta : Time) (found : Option Time) (tb : Time) : Prop :=
  match found with
  | none => ta + 30 * sec ≤ tb
  | some t => ta + 15 * ms ≤ tb ∨ (ta ≤ t ∧ (t ≤ tb ∨ ta + 30 * sec ≤ tb))

private theorem waited_mono {ta : Time} {f : Option Time} {t t' : Time} (h : WaitedBetween ta f t) (hle : t ≤ t') :
    WaitedBetween ta f t' := by
  cases f <;> simp only [WaitedBetween, Time, Delta, ms, sec] at * <;> omega

private theorem waited_of_delay {ta c s now : Time} {f : Option Time} (h1 : ta ≤ c) (h2 : c ≤ s)
    (h3 : s + streamDelay c f ≤ now) : WaitedBetween ta f now := by
  cases f with
  | none => simp only [WaitedBetween, streamDelay, defaultDelay, Time, Delta, ms, sec] at *; omega
  | some t =>
    simp only [WaitedBetween, streamDelay, defaultDelay, pollDelta, Time, Delta, ms, sec] at *
    split at h3 <;> omega

/-! ## In memory -/

/-- When stream `i` looked for the earliest available job, and what it found. -/
def looksOf (i : Nat) (s : Streams) (as : List TStAct) : List (Time × Option Time) :=
  (as.zip (s.trace as)).filterMap fun x =>
    match x.2 with
    | .looked k f => if k = i then some (x.1.now, f) else none
    | _ => none

/-- Stream `i` got a message or returned a job. -/
def StEv.disturbs (i : Nat) : StEv → Bool
  | .received k => k == i
  | .returned k _ => k == i
  | _ => false

private def goingOn (ta : Time) (f : Option Time) (now : Time) (w : Wait) : Prop :=
  WaitedBetween ta f now ∨
  match w with
  | .ready => False
  | .looked g => g = f
  | .decided c d => ta ≤ c ∧ c ≤ now ∧ d = streamDelay c f
  | .asleep c s d => ta ≤ c ∧ c ≤ s ∧ s ≤ now ∧ d = streamDelay c f

private theorem goingOn_mono {ta : Time} {f : Option Time} {t t' : Time} {w : Wait} (h : goingOn ta f t w) (hle : t ≤ t') :
    goingOn ta f t' w := by
  rcases h with h | h
  · exact .inl (waited_mono h hle)
  · refine .inr ?_
    cases w with
    | ready => exact h
    | looked g => exact h
    | decided c d => exact ⟨h.1, Int.le_trans h.2.1 hle, h.2.2⟩
    | asleep c s d => exact ⟨h.1, h.2.1, Int.le_trans h.2.2.1 hle, h.2.2.2⟩

private theorem setWait_get {s : Streams} {i k : Nat} {r : Reader} (hr : s.readers[i]? = some r) (w : Wait) :
    (s.setWait k w).readers[i]? = some (if k = i then { r with wait := w } else r) := by
  simp only [Streams.setWait, List.getElem?_modify, hr, Option.map_some]
  split <;> rfl

/-- One step keeps it. -/
private theorem goingOn_step {s : Streams} {i : Nat} {r : Reader} {ta t now : Time} {f : Option Time} {a : StAct}
    (hr : s.readers[i]? = some r) (hg : goingOn ta f t r.wait) (hta : ta ≤ t) (hle : t ≤ now)
    (hq : (s.step now a).1.disturbs i = false) :
    ∃ r', (s.step now a).2.readers[i]? = some r' ∧ goingOn ta f now r'.wait ∧
      ∀ g, (s.step now a).1 = .looked i g → WaitedBetween ta f now := by
  have hg' := goingOn_mono hg hle
  cases a with
  | client a => exact ⟨r, hr, hg', fun g h => by simp [Streams.step] at h⟩
  | subscribe x =>
    refine ⟨r, ?_, hg', fun g h => by simp [Streams.step] at h⟩
    simp only [Streams.step]
    rw [List.getElem?_append_left (List.getElem?_eq_some_iff.mp hr).1, hr]
  | stream k timer =>
    by_cases hk : k = i
    · subst hk
      simp only [Streams.step, hr, Streams.streamStep] at hq ⊢
      cases hw : r.wait with
      | ready =>
        rw [hw] at hg'
        rcases hg' with h | h
        · exact ⟨_, setWait_get hr _, .inl h, fun g _ => h⟩
        · exact h.elim
      | looked g =>
        rw [hw] at hg'
        refine ⟨_, setWait_get hr _, ?_, fun g h => by simp at h⟩
        rw [if_pos rfl]
        rcases hg' with h | h
        · exact .inl h
        · exact .inr ⟨Int.le_trans hta hle, Int.le_refl _, by rw [h]⟩
      | decided c d =>
        rw [hw] at hg' hq
        have hsl : goingOn ta f now (.asleep c now d) := by
          rcases hg' with h | h
          · exact .inl h
          · exact .inr ⟨h.1, h.2.1, Int.le_refl _, h.2.2⟩
        simp only at hq ⊢
        by_cases hd : d ≤ pollDelta
        · rw [if_pos hd] at hq ⊢
          generalize s.conc.mem.load now r.executor = q at hq
          obtain ⟨j, m⟩ := q
          cases j with
          | some j => simp [StEv.disturbs] at hq
          | none =>
            refine ⟨_, setWait_get hr _, ?_, fun g h => by simp at h⟩
            rw [if_pos rfl]
            exact hsl
        · rw [if_neg hd]
          refine ⟨_, setWait_get hr _, ?_, fun g h => by simp at h⟩
          rw [if_pos rfl]
          exact hsl
      | asleep c since d =>
        rw [hw] at hg' hq
        simp only at hq ⊢
        by_cases h1 : (s.conc.mem.hasMessage r.sub && !(timer && decide (since + d ≤ now))) = true
        · rw [if_pos h1] at hq
          simp [StEv.disturbs] at hq
        · rw [if_neg h1]
          by_cases h2 : since + d ≤ now
          · rw [if_pos (by simpa using h2)]
            refine ⟨_, setWait_get hr _, ?_, fun g h => by simp at h⟩
            rw [if_pos rfl]
            rcases hg' with h | ⟨h, h', h'', h3⟩
            · exact .inl h
            · subst h3
              exact .inl (waited_of_delay h h' h2)
          · rw [if_neg (by simpa using h2)]
            exact ⟨r, hr, hw ▸ hg', fun g h => by simp at h⟩
    · simp only [Streams.step]
      cases hrk : s.readers[k]? with
      | none => exact ⟨r, hr, hg', fun g h => by simp at h⟩
      | some q =>
        have set : ∀ (s' : Streams) (w : Wait), s'.readers = s.readers → (s'.setWait k w).readers[i]? = some r := by
          intro s' w h
          rw [setWait_get (h ▸ hr), if_neg hk]
        simp only [Streams.streamStep]
        cases q.wait with
        | ready => exact ⟨r, set s _ rfl, hg', fun g h => by simp [hk] at h⟩
        | looked g => exact ⟨r, set s _ rfl, hg', fun g h => by simp at h⟩
        | decided c d =>
          simp only
          split
          · generalize s.conc.mem.load now q.executor = z
            obtain ⟨j, m⟩ := z
            cases j with
            | some j => exact ⟨r, set (s.setMem m) _ rfl, hg', fun g h => by simp at h⟩
            | none => exact ⟨r, set s _ rfl, hg', fun g h => by simp at h⟩
          · exact ⟨r, set s _ rfl, hg', fun g h => by simp at h⟩
        | asleep c since d =>
          simp only
          split
          · exact ⟨r, set (s.setMem _) _ rfl, hg', fun g h => by simp at h⟩
          · split
            · exact ⟨r, set s _ rfl, hg', fun g h => by simp at h⟩
            · exact ⟨r, hr, hg', fun g h => by simp at h⟩

private theorem looksOf_cons (i : Nat) (s : Streams) (a : TStAct) (as : List TStAct) :
    looksOf i s (a :: as) =
      (match (s.step a.now a.act).1 with
        | .looked k f => if k = i then [(a.now, f)] else []
        | _ => []) ++ looksOf i (s.step a.now a.act).2 as := by
  simp only [looksOf, Streams.trace, List.zip_cons_cons, List.filterMap_cons]
  cases (s.step a.now a.act).1 <;> simp
  split <;> simp_all

private theorem looks_after {s : Streams} {i : Nat} {r : Reader} {ta t : Time} {f : Option Time} {as : List TStAct}
    (hr : s.readers[i]? = some r) (hg : goingOn ta f t r.wait) (hta : ta ≤ t)
    (hc : (t :: as.map (·.now)).Pairwise (· ≤ ·)) (hq : ∀ ev ∈ s.trace as, ev.disturbs i = false) :
    ∀ y ∈ looksOf i s as, WaitedBetween ta f y.1 := by
  induction as generalizing s r t with
  | nil => intro y hy; simp [looksOf] at hy
  | cons a as ih =>
    rw [List.map_cons] at hc
    have hle : t ≤ a.now := List.rel_of_pairwise_cons hc (by simp)
    obtain ⟨r', h1, h2, h3⟩ := goingOn_step (a := a.act) hr hg hta hle (hq _ (by simp [Streams.trace]))
    intro y hy
    rw [looksOf_cons, List.mem_append] at hy
    rcases hy with hy | hy
    · generalize hev : (s.step a.now a.act).1 = ev at hy h3
      cases ev with
      | looked k g =>
        simp only at hy
        split at hy
        · rename_i hk
          subst hk
          simp only [List.mem_singleton] at hy
          subst hy
          exact h3 g rfl
        · simp at hy
      | _ => simp at hy
    · exact ih h1 h2 (Int.le_trans hta hle) (List.Pairwise.of_cons hc)
        (fun ev h => hq ev (by simp [Streams.trace, h])) y hy

private theorem look_reader {s : Streams} {t : Time} {a : StAct} {i : Nat} {f : Option Time}
    (h : (s.step t a).1 = .looked i f) :
    ∃ r, (s.step t a).2.readers[i]? = some r ∧ r.wait = .looked f := by
  cases a with
  | client a => simp [Streams.step] at h
  | subscribe x => simp [Streams.step] at h
  | stream k timer =>
    simp only [Streams.step] at h ⊢
    cases hrk : s.readers[k]? with
    | none => simp [hrk] at h
    | some q =>
      simp only [hrk, Streams.streamStep] at h ⊢
      cases hw : q.wait with
      | ready =>
        simp only [hw, StEv.looked.injEq] at h
        obtain ⟨h1, h2⟩ := h
        subst h1
        refine ⟨_, setWait_get hrk _, ?_⟩
        simp [h2]
      | looked g => simp [hw] at h
      | decided c d =>
        simp only [hw] at h
        split at h
        · generalize s.conc.mem.load t q.executor = z at h
          obtain ⟨j, m⟩ := z
          cases j <;> simp at h
        · simp at h
      | asleep c since d =>
        simp only [hw] at h
        split at h
        · simp at h
        · split at h <;> simp at h

/-- **C121, in memory.** Take any state of the backend and any schedule from there on whose clock
does not run backwards and in which stream `i` gets no message and returns no job. Then between any
two of its looks for the earliest available job lie thirty seconds if the first found none, fifteen
milliseconds if the time of what it found had passed, and otherwise the time until then, up to thirty
seconds, or fifteen milliseconds. -/
theorem C121_in_memory (s : Streams) (i : Nat) (as : List TStAct) (hc : (as.map (·.now)).Pairwise (· ≤ ·))
    (hq : ∀ ev ∈ s.trace as, ev.disturbs i = false) :
    (looksOf i s as).Pairwise fun x y => WaitedBetween x.1 x.2 y.1 := by
  induction as generalizing s with
  | nil => simp [looksOf]
  | cons a as ih =>
    rw [List.map_cons] at hc
    have ih' := ih (s.step a.now a.act).2 (List.Pairwise.of_cons hc) (fun ev h => hq ev (by simp [Streams.trace, h]))
    rw [looksOf_cons]
    split
    · rename_i k f hev
      split
      · rename_i hk
        subst hk
        obtain ⟨r, h1, h2⟩ := look_reader hev
        refine List.pairwise_cons.mpr ⟨?_, ih'⟩
        exact looks_after h1 (h2 ▸ .inr rfl) (Int.le_refl _) hc (fun ev h => hq ev (by simp [Streams.trace, h]))
      · exact ih'
    · exact ih'

/-- How often: `n` looks after the first take at least `n` times fifteen milliseconds. -/
private theorem chain_length {l : List (Time × Option Time)} {x : Time × Option Time} {last : Time}
    (h : (x :: l).Pairwise fun x y => WaitedBetween x.1 x.2 y.1) (hd : ∀ y ∈ x :: l, ∀ t, y.2 = some t → t < y.1)
    (hl : ∀ y ∈ x :: l, y.1 ≤ last) : (l.length : Int) * (15 * ms) ≤ last - x.1 := by
  induction l generalizing x with
  | nil => have := hl x (by simp); simp only [Time, Delta, ms, List.length_nil] at *; omega
  | cons y l ih =>
    have h1 : WaitedBetween x.1 x.2 y.1 := List.rel_of_pairwise_cons h (by simp)
    have h2 := ih (List.Pairwise.of_cons h) (fun z hz => hd z (List.mem_cons_of_mem _ hz))
      (fun z hz => hl z (List.mem_cons_of_mem _ hz))
    have h3 : x.1 + 15 * ms ≤ y.1 := by
      have hx := hd x (by simp)
      generalize x.2 = f at h1 hx
      cases f with
      | none => simp only [WaitedBetween, Time, Delta, ms, sec] at *; omega
      | some t =>
        have := hx t rfl
        simp only [WaitedBetween, Time, Delta, ms, sec] at *
        omega
    simp only [List.length_cons, Time, Delta, ms] at *
    omega

/-- **C121, how often in memory.** As long as a stream gets no message, returns no job and finds at
each look no available job or one whose time has passed, it looks at most once every fifteen
milliseconds. -/
theorem C121_rate_in_memory (s : Streams) (i : Nat) (as : List TStAct) (first last : Time)
    (hc : (as.map (·.now)).Pairwise (· ≤ ·)) (hin : ∀ a ∈ as, first ≤ a.now ∧ a.now ≤ last)
    (hq : ∀ ev ∈ s.trace as, ev.disturbs i = false)
    (hpast : ∀ x ∈ looksOf i s as, ∀ t, x.2 = some t → t < x.1) (hle : first ≤ last) :
    (((looksOf i s as).length : Int) - 1) * (15 * ms) ≤ last - first := by
  have h := C121_in_memory s i as hc hq
  have hmem : ∀ y ∈ looksOf i s as, first ≤ y.1 ∧ y.1 ≤ last := by
    intro y hy
    simp only [looksOf, List.mem_filterMap] at hy
    obtain ⟨x, hx, hy⟩ := hy
    have := hin x.1 (List.of_mem_zip hx).1
    split at hy
    · split at hy
      · simp only [Option.some.injEq] at hy
        subst hy
        exact this
      · simp at hy
    · simp at hy
  cases hl : looksOf i s as with
  | nil => simp only [List.length_nil, Time, Delta, ms] at *; omega
  | cons x l =>
    rw [hl] at h hmem hpast
    have h1 := chain_length h hpast (fun y hy => (hmem y hy).2)
    have h2 := (hmem x (by simp)).1
    simp only [List.length_cons, Time, Delta, ms] at *
    omega

/-- **C121, looking again early.** A stream goes to sleep for fifteen milliseconds or less only
when, at that moment, no available job of its executor is due within a hundred milliseconds: what
it had found was taken by someone else or put off. -/
theorem C121_taken (s : Streams) (i : Nat) (now : Time) (a : StAct) (r : Reader) (clock since : Time) (delay : Delta)
    (hev : (s.step now a).1 = .slept i) (hr : (s.step now a).2.readers[i]? = some r)
    (hw : r.wait = .asleep clock since delay) (hd : delay ≤ 15 * ms) :
    ∀ k ∈ (s.step now a).2.conc.mem.jobs, k.job.executor = r.executor →
      (k.job.status = .scheduled ∨ k.job.status = .retryable) → now + 100 * ms ≤ k.job.scheduledAt := by
  cases a with
  | client a => simp [Streams.step] at hev
  | subscribe x => simp [Streams.step] at hev
  | stream k timer =>
    simp only [Streams.step] at hev hr ⊢
    cases hrk : s.readers[k]? with
    | none => simp [hrk] at hev
    | some q =>
      simp only [hrk, Streams.streamStep] at hev hr ⊢
      cases hq : q.wait with
      | ready => simp [hq] at hev
      | looked g => simp [hq] at hev
      | decided c d =>
        simp only [hq] at hev hr ⊢
        by_cases hp : d ≤ pollDelta
        · rw [if_pos hp] at hev hr ⊢
          rcases load_cases now q.executor s.conc.mem with ⟨h, h'⟩ | ⟨l, k', rr, h1, h2, h3, h4, h5⟩
          · simp only [h', StEv.slept.injEq] at hev hr ⊢
            subst hev
            rw [setWait_get hrk, if_pos rfl, Option.some.injEq] at hr
            subst hr
            intro k' hk' hx hs
            have hn := h k' hk'
            rw [← Bool.not_eq_true, readyFor_iff] at hn
            refine Classical.byContradiction fun hlt => hn ⟨hx, ?_, hs⟩
            simp only [Time, Delta, ms] at *
            omega
          · simp [h5] at hev
        · rw [if_neg hp] at hev hr
          simp only [StEv.slept.injEq] at hev
          subst hev
          rw [setWait_get hrk, if_pos rfl, Option.some.injEq] at hr
          subst hr
          simp only [Wait.asleep.injEq] at hw
          obtain ⟨-, -, hw⟩ := hw
          subst hw
          exact (hp hd).elim
      | asleep c since d =>
        simp only [hq] at hev
        split at hev
        · simp at hev
        · split at hev <;> simp at hev

/-- Two streams of one executor and a job that is overdue. -/
def twoWaiting : Streams :=
  (Streams.init).run
    [⟨0, .client (.start sampleEnq)⟩, ⟨0, .client (.advance 0)⟩, ⟨0, .client (.advance 0)⟩, ⟨0, .client (.advance 0)⟩,
     ⟨0, .subscribe "mail"⟩, ⟨0, .subscribe "mail"⟩]

/-- The second takes the job after the first has looked; the first goes on looking. -/
def twoLooking : List TStAct :=
  [⟨1 * sec, .stream 0 false⟩, ⟨1 * sec, .stream 0 false⟩, ⟨1 * sec, .stream 1 false⟩, ⟨1 * sec, .stream 1 false⟩,
   ⟨1 * sec, .stream 1 false⟩, ⟨1 * sec, .stream 0 false⟩, ⟨1 * sec + 14 * ms, .stream 0 false⟩,
   ⟨1 * sec + 15 * ms, .stream 0 false⟩, ⟨1 * sec + 15 * ms, .stream 0 false⟩, ⟨1 * sec + 15 * ms, .stream 0 false⟩,
   ⟨1 * sec + 15 * ms, .stream 0 false⟩, ⟨31 * sec + 15 * ms, .stream 0 false⟩, ⟨31 * sec + 15 * ms, .stream 0 false⟩]

private def quietFor (i : Nat) (s : Streams) (as : List TStAct) : Bool := (s.trace as).all fun ev => !ev.disturbs i

private theorem quietFor_spec {i : Nat} {s : Streams} {as : List TStAct} (h : quietFor i s as = true) :
    ∀ ev ∈ s.trace as, ev.disturbs i = false := by
  intro ev hev
  simpa using List.all_eq_true.mp h ev hev

/-- The hypotheses of `C121_in_memory` and `C121_rate_in_memory` are met: three looks, fifteen
milliseconds and thirty seconds apart. -/
example : ((twoLooking.map (·.now)).Pairwise (· ≤ ·)) ∧
    (∀ ev ∈ twoWaiting.trace twoLooking, ev.disturbs 0 = false) ∧
    looksOf 0 twoWaiting twoLooking =
      [(1 * sec, some 0), (1 * sec + 15 * ms, none), (31 * sec + 15 * ms, none)] ∧
    (∀ x ∈ looksOf 0 twoWaiting twoLooking, ∀ t, x.2 = some t → t < x.1) ∧
    (∀ a ∈ twoLooking, 1 * sec ≤ a.now ∧ a.now ≤ 32 * sec) := by
  have h : looksOf 0 twoWaiting twoLooking =
      [(1 * sec, some 0), (1 * sec + 15 * ms, none), (31 * sec + 15 * ms, none)] := by decide +kernel
  refine ⟨by decide, quietFor_spec (by decide +kernel), h, ?_, by decide⟩
  rw [h]
  intro x hx t ht
  simp only [List.mem_cons, List.not_mem_nil, or_false] at hx
  rcases hx with rfl | rfl | rfl <;> simp at ht
  subst ht
  decide

private def sleepsAt (ev : StEv) : Bool := match ev with | .slept 0 => true | _ => false

private theorem sleepsAt_spec {ev : StEv} (h : sleepsAt ev = true) : ev = .slept 0 := by
  unfold sleepsAt at h
  split at h <;> simp_all

/-- The hypotheses of `C121_taken` are met. -/
example : ((twoWaiting.run (twoLooking.take 5)).step (1 * sec) (.stream 0 false)).1 = .slept 0 ∧
    ((twoWaiting.run (twoLooking.take 5)).step (1 * sec) (.stream 0 false)).2.readers[0]? =
      some { sub := 0, executor := "mail", wait := .asleep (1 * sec) (1 * sec) (15 * ms) } := by
  exact ⟨sleepsAt_spec (by decide +kernel), by decide +kernel⟩

/-! ## On Postgres -/

/-- When stream `i` looked for the earliest available job, and what it found. -/
def pgLooksOf (hash : HashFn) (parses : Parses) (i : Nat) (s : PgNet) (as : List TNetAct) : List (Time × Option Time) :=
  (as.zip (s.trace hash parses as)).filterMap fun x =>
    match x.2 with
    | .looked k f => if k = i then some (x.1.now, f) else none
    | _ => none

/-- Stream `i` got a message, returned a job or failed. -/
def NetEv.disturbs (i : Nat) : NetEv → Bool
  | .received k _ => k == i
  | .returned k _ => k == i
  | .failed k => k == i
  | _ => false

private def pgGoingOn (ta : Time) (f : Option Time) (now : Time) (w : PgWait) : Prop :=
  WaitedBetween ta f now ∨
  match w with
  | .ready => False
  | .looked g => g = f
  | .decided c d => ta ≤ c ∧ c ≤ now ∧ d = streamDelay c f
  | .loading c d _ => ta ≤ c ∧ c ≤ now ∧ d = streamDelay c f
  | .asleep c s d => ta ≤ c ∧ c ≤ s ∧ s ≤ now ∧ d = streamDelay c f

private theorem pgGoingOn_mono {ta : Time} {f : Option Time} {t t' : Time} {w : PgWait} (h : pgGoingOn ta f t w)
    (hle : t ≤ t') : pgGoingOn ta f t' w := by
  rcases h with h | h
  · exact .inl (waited_mono h hle)
  · refine .inr ?_
    cases w with
    | ready => exact h
    | looked g => exact h
    | decided c d => exact ⟨h.1, Int.le_trans h.2.1 hle, h.2.2⟩
    | loading c d k => exact ⟨h.1, Int.le_trans h.2.1 hle, h.2.2⟩
    | asleep c s d => exact ⟨h.1, h.2.1, Int.le_trans h.2.2.1 hle, h.2.2.2⟩

/-- One step keeps it. -/
private theorem pgGoingOn_step {hash : HashFn} {parses : Parses} {tie : Int → Nat} {s : PgNet} {i : Nat} {r : PgReader}
    {ta t now : Time} {f : Option Time} {a : NetAct}
    (hr : s.readers[i]? = some r) (hg : pgGoingOn ta f t r.wait) (hta : ta ≤ t) (hle : t ≤ now)
    (hq : (s.step hash parses tie now a).1.disturbs i = false) :
    ∃ r', (s.step hash parses tie now a).2.readers[i]? = some r' ∧ pgGoingOn ta f now r'.wait ∧
      ∀ g, (s.step hash parses tie now a).1 = .looked i g → WaitedBetween ta f now := by
  have hg' := pgGoingOn_mono hg hle
  have no : ∀ {ev : NetEv}, (∀ k g, ev ≠ .looked k g) → ∀ g, ev = .looked i g → WaitedBetween ta f now :=
    fun h g h' => (h i g h').elim
  cases a with
  | db a => exact ⟨r, hr, hg', no (by simp [PgNet.step, PgNet.dbStep])⟩
  | connect => exact ⟨r, hr, hg', no (by simp [PgNet.step])⟩
  | subscribe m x =>
    refine ⟨r, ?_, hg', no (by simp [PgNet.step])⟩
    simp only [PgNet.step]
    rw [List.getElem?_append_left (List.getElem?_eq_some_iff.mp hr).1, hr]
  | deliver m =>
    refine (fun (h : ∃ r', (s.deliver parses m).readers[i]? = some r' ∧ r'.wait = r.wait) => ?_) ?_
    · obtain ⟨r', h1, h2⟩ := h
      exact ⟨r', h1, h2 ▸ hg', no (by simp [PgNet.step])⟩
    · simp only [PgNet.deliver]
      split
      · exact ⟨r, hr, rfl⟩
      · split
        · exact ⟨r, hr, rfl⟩
        · rename_i x t' rest hi
          split
          · by_cases hx : r.node = m ∧ r.executor = x
            · exact ⟨{ r with queue := r.queue ++ [t'] }, by simp [hr, hx], rfl⟩
            · exact ⟨r, by simp [hr, hx], rfl⟩
          · exact ⟨r, hr, rfl⟩
  | reconnect m => exact ⟨r, hr, hg', no (by simp [PgNet.step])⟩
  | fail m => exact ⟨r, hr, hg', no (by simp [PgNet.step])⟩
  | streamFails k =>
    by_cases hk : k = i
    · subst hk
      simp only [PgNet.step, hr] at hq ⊢
      obtain ⟨n, x, qu, w⟩ := r
      cases w with
      | ready => simp [NetEv.disturbs] at hq
      | loading c d m => simp [NetEv.disturbs] at hq
      | looked g => exact ⟨_, hr, hg', no (by simp)⟩
      | decided c d => exact ⟨_, hr, hg', no (by simp)⟩
      | asleep c since d => exact ⟨_, hr, hg', no (by simp)⟩
    · have set : ∀ w : PgWait, (s.setWait k w).readers[i]? = some r := by
        intro w
        rw [pgnet_setWait_wait hr, if_neg hk]
      simp only [PgNet.step]
      split
      · exact ⟨r, hr, hg', no (by simp)⟩
      · exact ⟨r, set _, hg', no (by simp)⟩
      · exact ⟨r, hr, hg', no (by simp)⟩
  | stream k timer =>
    by_cases hk : k = i
    · subst hk
      simp only [PgNet.step, hr, PgNet.streamStep] at hq ⊢
      cases hw : r.wait with
      | ready =>
        rw [hw] at hg'
        rcases hg' with h | h
        · exact ⟨_, pgnet_setWait_wait hr, .inl h, fun g _ => h⟩
        · exact h.elim
      | looked g =>
        rw [hw] at hg'
        refine ⟨_, pgnet_setWait_wait hr, ?_, no (by simp)⟩
        rw [if_pos rfl]
        rcases hg' with h | h
        · exact .inl h
        · exact .inr ⟨Int.le_trans hta hle, Int.le_refl _, by rw [h]⟩
      | decided c d =>
        rw [hw] at hg' hq
        simp only at hq ⊢
        by_cases hd : d ≤ pollDelta
        · rw [if_pos hd]
          refine ⟨{ r with wait := .loading c d s.conc.sessions.length }, ?_, hg', no (by simp [PgNet.dbStep])⟩
          exact (pgnet_setWait_wait (s := (s.dbStep hash tie now (.handout r.executor)).2) (j := k) hr).trans
            (by rw [if_pos rfl])
        · rw [if_neg hd]
          refine ⟨_, pgnet_setWait_wait hr, ?_, no (by simp)⟩
          rw [if_pos rfl]
          rcases hg' with h | h
          · exact .inl h
          · exact .inr ⟨h.1, h.2.1, Int.le_refl _, h.2.2⟩
      | loading c d m =>
        rw [hw] at hg' hq
        simp only at hq ⊢
        split at hq
        · simp [NetEv.disturbs] at hq
        · refine ⟨_, pgnet_setWait_wait hr, ?_, no (by simp)⟩
          rw [if_pos rfl]
          rcases hg' with h | h
          · exact .inl h
          · exact .inr ⟨h.1, h.2.1, Int.le_refl _, h.2.2⟩
        · simp [NetEv.disturbs] at hq
        · exact ⟨r, hr, hw ▸ hg', no (by simp [PgNet.dbStep])⟩
      | asleep c since d =>
        rw [hw] at hg' hq
        simp only at hq ⊢
        have hdue : since + d ≤ now → WaitedBetween ta f now := by
          intro h2
          rcases hg' with h | ⟨h, h', h'', h3⟩
          · exact h
          · subst h3
            exact waited_of_delay h h' h2
        cases hqu : r.queue with
        | nil =>
          simp only
          by_cases h2 : since + d ≤ now
          · rw [if_pos (by simpa using h2)]
            refine ⟨_, pgnet_setWait_wait hr, ?_, no (by simp)⟩
            rw [if_pos rfl]
            exact .inl (hdue h2)
          · rw [if_neg (by simpa using h2)]
            exact ⟨r, hr, hw ▸ hg', no (by simp)⟩
        | cons x rest =>
          simp only [hqu] at hq ⊢
          by_cases h2 : (timer && decide (since + d ≤ now)) = true
          · rw [if_pos h2]
            refine ⟨_, pgnet_setWait_wait hr, ?_, no (by simp)⟩
            rw [if_pos rfl]
            simp only [Bool.and_eq_true, decide_eq_true_eq] at h2
            exact .inl (hdue h2.2)
          · rw [if_neg h2] at hq
            simp [NetEv.disturbs] at hq
    · simp only [PgNet.step]
      cases hrk : s.readers[k]? with
      | none => exact ⟨r, hr, hg', no (by simp)⟩
      | some q =>
        have set : ∀ (s' : PgNet) (w : PgWait), s'.readers = s.readers → (s'.setWait k w).readers[i]? = some r := by
          intro s' w h
          rw [pgnet_setWait_wait (h ▸ hr), if_neg hk]
        simp only [PgNet.streamStep]
        cases q.wait with
        | ready => exact ⟨r, set s _ rfl, hg', fun g h => by simp [hk] at h⟩
        | looked g => exact ⟨r, set s _ rfl, hg', no (by simp)⟩
        | decided c d =>
          simp only
          split
          · exact ⟨r, set (s.dbStep hash tie now (.handout q.executor)).2 _ rfl, hg', no (by simp [PgNet.dbStep])⟩
          · exact ⟨r, set s _ rfl, hg', no (by simp)⟩
        | loading c d m =>
          simp only
          split
          · exact ⟨r, set s _ rfl, hg', no (by simp)⟩
          · exact ⟨r, set s _ rfl, hg', no (by simp)⟩
          · exact ⟨r, set s _ rfl, hg', no (by simp)⟩
          · exact ⟨r, hr, hg', no (by simp [PgNet.dbStep])⟩
        | asleep c since d =>
          simp only
          split
          · split
            · exact ⟨r, set s _ rfl, hg', no (by simp)⟩
            · refine ⟨r, ?_, hg', no (by simp)⟩
              simp [hr, hk]
          · split
            · exact ⟨r, set s _ rfl, hg', no (by simp)⟩
            · exact ⟨r, hr, hg', no (by simp)⟩

private theorem pgLooksOf_cons (hash : HashFn) (parses : Parses) (i : Nat) (s : PgNet) (a : TNetAct) (as : List TNetAct) :
    pgLooksOf hash parses i s (a :: as) =
      (match (s.step hash parses a.tie a.now a.act).1 with
        | .looked k f => if k = i then [(a.now, f)] else []
        | _ => []) ++ pgLooksOf hash parses i (s.step hash parses a.tie a.now a.act).2 as := by
  simp only [pgLooksOf, PgNet.trace, List.zip_cons_cons, List.filterMap_cons]
  cases (s.step hash parses a.tie a.now a.act).1 <;> simp
  split <;> simp_all

private theorem pg_looks_after {hash : HashFn} {parses : Parses} {s : PgNet} {i : Nat} {r : PgReader} {ta t : Time}
    {f : Option Time} {as : List TNetAct}
    (hr : s.readers[i]? = some r) (hg : pgGoingOn ta f t r.wait) (hta : ta ≤ t)
    (hc : (t :: as.map (·.now)).Pairwise (· ≤ ·)) (hq : ∀ ev ∈ s.trace hash parses as, ev.disturbs i = false) :
    ∀ y ∈ pgLooksOf hash parses i s as, WaitedBetween ta f y.1 := by
  induction as generalizing s r t with
  | nil => intro y hy; simp [pgLooksOf] at hy
  | cons a as ih =>
    rw [List.map_cons] at hc
    have hle : t ≤ a.now := List.rel_of_pairwise_cons hc (by simp)
    obtain ⟨r', h1, h2, h3⟩ := pgGoingOn_step (a := a.act) hr hg hta hle
      (hq (s.step hash parses a.tie a.now a.act).1 (by simp [PgNet.trace]))
    intro y hy
    rw [pgLooksOf_cons, List.mem_append] at hy
    rcases hy with hy | hy
    · generalize hev : (s.step hash parses a.tie a.now a.act).1 = ev at hy h3
      cases ev with
      | looked k g =>
        simp only at hy
        split at hy
        · rename_i hk
          subst hk
          simp only [List.mem_singleton] at hy
          subst hy
          exact h3 g rfl
        · simp at hy
      | _ => simp at hy
    · exact ih h1 h2 (Int.le_trans hta hle) (List.Pairwise.of_cons hc)
        (fun ev h => hq ev (by simp [PgNet.trace, h])) y hy

private theorem pg_look_reader {hash : HashFn} {parses : Parses} {tie : Int → Nat} {s : PgNet} {t : Time} {a : NetAct}
    {i : Nat} {f : Option Time} (h : (s.step hash parses tie t a).1 = .looked i f) :
    ∃ r, (s.step hash parses tie t a).2.readers[i]? = some r ∧ r.wait = .looked f := by
  cases a with
  | stream k timer =>
    simp only [PgNet.step] at h ⊢
    cases hrk : s.readers[k]? with
    | none => simp [hrk] at h
    | some q =>
      simp only [hrk, PgNet.streamStep] at h ⊢
      cases hw : q.wait with
      | ready =>
        simp only [hw, NetEv.looked.injEq] at h
        obtain ⟨h1, h2⟩ := h
        subst h1
        refine ⟨_, pgnet_setWait_wait hrk, ?_⟩
        simp [h2]
      | looked g => simp [hw] at h
      | decided c d =>
        simp only [hw] at h
        split at h <;> simp [PgNet.dbStep] at h
      | loading c d m =>
        simp only [hw] at h
        split at h <;> simp [PgNet.dbStep] at h
      | asleep c since d =>
        simp only [hw] at h
        split at h
        · split at h <;> simp at h
        · split at h <;> simp at h
  | streamFails k =>
    simp only [PgNet.step] at h
    split at h <;> simp at h
  | db a => simp [PgNet.step, PgNet.dbStep] at h
  | connect => simp [PgNet.step] at h
  | subscribe m x => simp [PgNet.step] at h
  | deliver m => simp [PgNet.step] at h
  | reconnect m => simp [PgNet.step] at h
  | fail m => simp [PgNet.step] at h

/-- **C121, on Postgres.** The same for the streams of any node, as long as the stream gets no
message, returns no job and no statement of its fails: whatever other nodes, listeners and the
database do. -/
theorem C121_on_postgres_partial (hash : HashFn) (parses : Parses) (s : PgNet) (i : Nat) (as : List TNetAct)
    (hc : (as.map (·.now)).Pairwise (· ≤ ·)) (hq : ∀ ev ∈ s.trace hash parses as, ev.disturbs i = false) :
    (pgLooksOf hash parses i s as).Pairwise fun x y => WaitedBetween x.1 x.2 y.1 := by
  induction as generalizing s with
  | nil => simp [pgLooksOf]
  | cons a as ih =>
    rw [List.map_cons] at hc
    have ih' := ih (s.step hash parses a.tie a.now a.act).2 (List.Pairwise.of_cons hc)
      (fun ev h => hq ev (by simp [PgNet.trace, h]))
    rw [pgLooksOf_cons]
    split
    · rename_i k f hev
      split
      · rename_i hk
        subst hk
        obtain ⟨r, h1, h2⟩ := pg_look_reader hev
        refine List.pairwise_cons.mpr ⟨?_, ih'⟩
        exact pg_looks_after h1 (h2 ▸ .inr rfl) (Int.le_refl _) hc (fun ev h => hq ev (by simp [PgNet.trace, h]))
      · exact ih'
    · exact ih'

/-- **C121, how often on Postgres.** -/
theorem C121_rate_on_postgres_partial (hash : HashFn) (parses : Parses) (s : PgNet) (i : Nat) (as : List TNetAct) (first last : Time)
    (hc : (as.map (·.now)).Pairwise (· ≤ ·)) (hin : ∀ a ∈ as, first ≤ a.now ∧ a.now ≤ last)
    (hq : ∀ ev ∈ s.trace hash parses as, ev.disturbs i = false)
    (hpast : ∀ x ∈ pgLooksOf hash parses i s as, ∀ t, x.2 = some t → t < x.1) (hle : first ≤ last) :
    (((pgLooksOf hash parses i s as).length : Int) - 1) * (15 * ms) ≤ last - first := by
  have h := C121_on_postgres_partial hash parses s i as hc hq
  have hmem : ∀ y ∈ pgLooksOf hash parses i s as, first ≤ y.1 ∧ y.1 ≤ last := by
    intro y hy
    simp only [pgLooksOf, List.mem_filterMap] at hy
    obtain ⟨x, hx, hy⟩ := hy
    have := hin x.1 (List.of_mem_zip hx).1
    split at hy
    · split at hy
      · simp only [Option.some.injEq] at hy
        subst hy
        exact this
      · simp at hy
    · simp at hy
  cases hl : pgLooksOf hash parses i s as with
  | nil => simp only [List.length_nil, Time, Delta, ms] at *; omega
  | cons x l =>
    rw [hl] at h hmem hpast
    have h1 := chain_length h hpast (fun y hy => (hmem y hy).2)
    have h2 := (hmem x (by simp)).1
    simp only [List.length_cons, Time, Delta, ms] at *
    omega

/-- A stream and an overdue job whose row another session has locked and not yet let go. -/
def lockedJob : List TNetAct :=
  [netAct 0 .connect, netAct 0 (.db (.plain sampleEnq)), netAct 0 (.subscribe 0 "mail"), netAct 0 (.db (.handout "mail")),
   netAct 0 (.db (.advance 0)), netAct 0 (.db (.advance 0))]

/-- The stream looks again and again. -/
def lookingOn : List TNetAct :=
  [netAct (1 * sec) (.stream 0 false), netAct (1 * sec) (.stream 0 false), netAct (1 * sec) (.stream 0 false),
   netAct (1 * sec) (.stream 0 false), netAct (1 * sec) (.stream 0 false), netAct (1 * sec) (.stream 0 false),
   netAct (1 * sec + 15 * ms) (.stream 0 false), netAct (1 * sec + 15 * ms) (.stream 0 false),
   netAct (1 * sec + 15 * ms) (.stream 0 false), netAct (1 * sec + 15 * ms) (.stream 0 false),
   netAct (1 * sec + 15 * ms) (.stream 0 false), netAct (1 * sec + 15 * ms) (.stream 0 false),
   netAct (1 * sec + 15 * ms) (.stream 0 false),
   netAct (1 * sec + 30 * ms) (.stream 0 false), netAct (1 * sec + 30 * ms) (.stream 0 false)]

private def pgQuietFor (i : Nat) (s : PgNet) (as : List TNetAct) : Bool :=
  (s.trace sampleHash sampleParses as).all fun ev => !ev.disturbs i

private theorem pgQuietFor_spec {i : Nat} {s : PgNet} {as : List TNetAct} (h : pgQuietFor i s as = true) :
    ∀ ev ∈ s.trace sampleHash sampleParses as, ev.disturbs i = false := by
  intro ev hev
  simpa using List.all_eq_true.mp h ev hev

/-- The hypotheses are met: three looks that find the overdue job, fifteen milliseconds apart. -/
example : ((lookingOn.map (·.now)).Pairwise (· ≤ ·)) ∧
    (∀ ev ∈ (PgNet.run sampleHash sampleParses {} lockedJob).trace sampleHash sampleParses lookingOn, ev.disturbs 0 = false) ∧
    pgLooksOf sampleHash sampleParses 0 (PgNet.run sampleHash sampleParses {} lockedJob) lookingOn =
      [(1 * sec, some 0), (1 * sec + 15 * ms, some 0), (1 * sec + 30 * ms, some 0)] ∧
    (∀ a ∈ lookingOn, 1 * sec ≤ a.now ∧ a.now ≤ 2 * sec) :=
  ⟨by decide, pgQuietFor_spec (by decide +kernel), by decide +kernel, by decide⟩

/-- **C121: violated on Postgres.** When the statement of a stream fails, the stream yields an error
and the next thing it does is run the statement again. As long as it fails there is no wait at all:
any number of attempts at one and the same instant. -/
theorem C121_violated_postgres (hash : HashFn) (parses : Parses) (t : Time) (tie : Int → Nat) (n : Nat) :
    (PgNet.run hash parses {} [⟨t, tie, .connect⟩, ⟨t, tie, .subscribe 0 "mail"⟩]).trace hash parses
        (List.replicate n ⟨t, tie, .streamFails 0⟩) = List.replicate n (.failed 0) := by
  induction n with
  | zero => rfl
  | succ n ih => exact congrArg (NetEv.failed 0 :: ·) ih

end Rexecutor
