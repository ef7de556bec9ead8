import Verif.Props.Live

/-!
# C28, with the streams of the runners

`take_until` looks at the token when a poll of the stream begins. On a runtime with several threads
the token can be cancelled while a poll is under way; that poll goes on and may return a job.
-/

namespace Rexecutor

/-- Runner `r` took a job from its stream. -/
def LvEv.takes (r : Nat) : LvEv → Bool
  | .moved r' (.returned _ _) _ => r' == r
  | _ => false

private def inPollOf (s : Live) (r : Nat) : Bool :=
  match s.runners[r]? with
  | some q => q.inPoll
  | none => false

private theorem inPollOf_set {s : Live} {x r : Nat} {q : LiveRunner} {st : Streams} {c : Bool} (h : q.inPoll = true → inPollOf s x = true) :
    inPollOf { streams := st, runners := s.runners.set x q, cancelled := c } r = true → inPollOf s r = true := by
  simp only [inPollOf, List.getElem?_set]
  by_cases e : x = r
  · subst e
    rw [if_pos rfl]
    by_cases hl : x < s.runners.length
    · rw [if_pos hl]; exact h
    · rw [if_neg hl]; simp
  · rw [if_neg e]; exact id

/-- After the token is cancelled, no poll begins, and one that returns a job is over. -/
private theorem cancelled_step {defs : List Runner} {now : Time} {s : Live} (a : LvAct) (hc : s.cancelled = true) :
    (s.act defs now a).2.cancelled = true ∧ ∀ r, (inPollOf (s.act defs now a).2 r = true → inPollOf s r = true) ∧
      ((s.act defs now a).1.takes r = true → inPollOf s r = true ∧ inPollOf (s.act defs now a).2 r = false) := by
  cases a with
  | client a => exact ⟨hc, fun r => ⟨id, nofun⟩⟩
  | shutdown => exact ⟨rfl, fun r => ⟨id, nofun⟩⟩
  | begin x =>
    cases hd : defs[x]? with
    | none => simp only [Live.act, hd]; exact ⟨hc, fun r => ⟨id, nofun⟩⟩
    | some d =>
      cases hq : s.runners[x]? with
      | none => simp only [Live.act, hd, hq]; exact ⟨hc, fun r => ⟨id, nofun⟩⟩
      | some q =>
        obtain ⟨st, ip, rs⟩ := q
        cases st with
        | some y => simp only [Live.act, hd, hq]; exact ⟨hc, fun r => ⟨id, nofun⟩⟩
        | none =>
          simp only [Live.act, hd, hq]
          exact ⟨hc, fun r => ⟨inPollOf_set (by simp [inPollOf, hq]), nofun⟩⟩
  | poll x =>
    cases hd : defs[x]? with
    | none => simp only [Live.act, hd]; exact ⟨hc, fun r => ⟨id, nofun⟩⟩
    | some d =>
      cases hq : s.runners[x]? with
      | none => simp only [Live.act, hd, hq]; exact ⟨hc, fun r => ⟨id, nofun⟩⟩
      | some q =>
        obtain ⟨st, ip, rs⟩ := q
        cases st with
        | none => simp only [Live.act, hd, hq]; exact ⟨hc, fun r => ⟨id, nofun⟩⟩
        | some y =>
          cases ip with
          | true => simp only [Live.act, hd, hq]; exact ⟨hc, fun r => ⟨id, nofun⟩⟩
          | false =>
            simp only [Live.act, hd, hq, hc, if_true]
            by_cases hb : (rs.polling && belowLimit d.maxConcurrency rs.flights.length) = true
            · rw [if_pos hb]
              exact ⟨rfl, fun r => ⟨inPollOf_set (by simp), nofun⟩⟩
            · rw [if_neg hb]; exact ⟨hc, fun r => ⟨id, nofun⟩⟩
  | step x b =>
    cases hd : defs[x]? with
    | none => simp only [Live.act, hd]; exact ⟨hc, fun r => ⟨id, nofun⟩⟩
    | some d =>
      cases hq : s.runners[x]? with
      | none => simp only [Live.act, hd, hq]; exact ⟨hc, fun r => ⟨id, nofun⟩⟩
      | some q =>
        obtain ⟨st, ip, rs⟩ := q
        cases st with
        | none => simp only [Live.act, hd, hq]; exact ⟨hc, fun r => ⟨id, nofun⟩⟩
        | some y =>
          cases ip with
          | false => simp only [Live.act, hd, hq]; exact ⟨hc, fun r => ⟨id, nofun⟩⟩
          | true =>
            simp only [Live.act, hd, hq]
            generalize s.streams.step now (.stream y b) = z
            obtain ⟨ev, st'⟩ := z
            have hx : inPollOf s x = true := by simp [inPollOf, hq]
            cases ev with
            | returned i j =>
              refine ⟨hc, fun r => ⟨inPollOf_set fun _ => hx, fun h => ?_⟩⟩
              obtain rfl : x = r := by simpa [LvEv.takes] using h
              refine ⟨hx, ?_⟩
              have hl := (List.getElem?_eq_some_iff.mp hq).1
              simp only [inPollOf, List.getElem?_set_self hl, LiveRunner.take]
              cases d.start j <;> rfl
            | nothing => exact ⟨hc, fun r => ⟨inPollOf_set (by simp), nofun⟩⟩
            | _ => exact ⟨hc, fun r => ⟨id, nofun⟩⟩
  | finish x y b =>
    cases hd : defs[x]? with
    | none => simp only [Live.act, hd]; exact ⟨hc, fun r => ⟨id, nofun⟩⟩
    | some d =>
      cases hq : s.runners[x]? with
      | none => simp only [Live.act, hd, hq]; exact ⟨hc, fun r => ⟨id, nofun⟩⟩
      | some q =>
        obtain ⟨st, ip, rs⟩ := q
        cases ip with
        | true => simp only [Live.act, hd, hq]; exact ⟨hc, fun r => ⟨id, nofun⟩⟩
        | false =>
          simp only [Live.act, hd, hq]
          cases hf : rs.flights[y]? with
          | none => exact ⟨hc, fun r => ⟨id, nofun⟩⟩
          | some fl =>
            obtain ⟨tk, ph⟩ := fl
            cases ph with
            | reporting o => exact ⟨hc, fun r => ⟨id, nofun⟩⟩
            | running =>
              simp only
              cases tk.join b with
              | none => exact ⟨hc, fun r => ⟨id, nofun⟩⟩
              | some j =>
                simp only
                cases d.report now tk j with
                | none => exact ⟨hc, fun r => ⟨inPollOf_set (by simp), nofun⟩⟩
                | some o => exact ⟨hc, fun r => ⟨inPollOf_set (by simp), nofun⟩⟩
  | report x y =>
    cases hq : s.runners[x]? with
    | none => simp only [Live.act, hq]; exact ⟨hc, fun r => ⟨id, nofun⟩⟩
    | some q =>
      obtain ⟨st, ip, rs⟩ := q
      cases ip with
      | true => simp only [Live.act, hq]; exact ⟨hc, fun r => ⟨id, nofun⟩⟩
      | false =>
        simp only [Live.act, hq]
        cases hf : rs.flights[y]? with
        | none => exact ⟨hc, fun r => ⟨id, nofun⟩⟩
        | some fl =>
          obtain ⟨tk, ph⟩ := fl
          cases ph with
          | running => exact ⟨hc, fun r => ⟨id, nofun⟩⟩
          | reporting o => exact ⟨hc, fun r => ⟨inPollOf_set (by simp), nofun⟩⟩

private theorem cancelled_run {defs : List Runner} {s : Live} (as : List TLvAct) (hc : s.cancelled = true) (r : Nat) :
    (s.trace defs as).countP (fun e => e.ev.takes r) ≤ if inPollOf s r then 1 else 0 := by
  induction as generalizing s with
  | nil => simp [Live.trace]
  | cons a as ih =>
    obtain ⟨h1, h2⟩ := cancelled_step (defs := defs) (now := a.now) a.act hc
    obtain ⟨h3, h4⟩ := h2 r
    have ih := ih h1
    simp only [Live.trace, List.countP_cons]
    cases ht : (s.act defs a.now a.act).1.takes r with
    | true =>
      obtain ⟨h5, h6⟩ := h4 ht
      rw [h6] at ih
      rw [h5]
      simp only [Bool.false_eq_true, if_false, if_true] at *
      omega
    | false =>
      cases hi : inPollOf (s.act defs a.now a.act).2 r with
      | true =>
        rw [h3 hi]
        rw [hi] at ih
        simpa using ih
      | false =>
        rw [hi] at ih
        simp only [Bool.false_eq_true, if_false] at *
        omega

/-- **C28, at most one more.** From any state: after the token is cancelled a runner takes at most one
more job from its stream, and none unless a poll of its stream was under way then. Missing: that it
takes none, which is false (`C28_violated`). -/
theorem C28_at_most_one_partial (defs : List Runner) (s : Live) (t : Time) (after : List TLvAct) (r : Nat) :
    ((s.act defs t .shutdown).2.trace defs after).countP (fun e => e.ev.takes r) ≤ 1 ∧
    ((∀ q, s.runners[r]? = some q → q.inPoll = false) →
      ∀ e ∈ (s.act defs t .shutdown).2.trace defs after, e.ev.takes r = false) := by
  have h := cancelled_run (defs := defs) (s := (s.act defs t .shutdown).2) after rfl r
  refine ⟨Nat.le_trans h (by split <;> omega), fun hq e he => ?_⟩
  have : inPollOf (s.act defs t .shutdown).2 r = false := by
    show inPollOf { s with cancelled := true } r = false
    simp only [inPollOf]
    split
    · exact hq _ ‹_›
    · rfl
  rw [this] at h
  have := List.countP_eq_zero.mp (Nat.le_zero.mp h) e he
  simpa using this

/-- **C28 is false of the code** as soon as the runner and the caller of `graceful_shutdown` are on different
threads: a poll is under way when the token is cancelled; it returns a job, and the runner executes it. -/
theorem C28_violated : ∃ (defs : List Runner) (before after : List TLvAct),
    (((Live.init defs).run defs before).act defs sec .shutdown).1 = .shutdown ∧
    ∃ e ∈ (((Live.init defs).run defs before).act defs sec .shutdown).2.trace defs after,
      ∃ r i j t, e.ev = .moved r (.returned i j) (some (.running t)) := by
  refine ⟨[eagerRunner (some 1)],
    [⟨0, .client (.start sampleEnq)⟩, ⟨0, .client (.advance 0)⟩, ⟨0, .client (.advance 0)⟩, ⟨0, .client (.advance 0)⟩,
     ⟨sec, .begin 0⟩, ⟨sec, .poll 0⟩, ⟨sec, .step 0 false⟩, ⟨sec, .step 0 false⟩],
    [⟨sec, .step 0 false⟩], rfl, _, List.mem_cons_self, 0, 0, ?_⟩
  exact ⟨_, _, rfl⟩

/-- **C28, nothing lost, with the streams.** In every continuation in which no poll begins, the events, the
backend and the runners are the same with and without the shutdown. -/
theorem C28_streams_nothing_lost (defs : List Runner) (s : Live) (t : Time) (after : List TLvAct)
    (ha : ∀ a ∈ after, ∀ r, a.act ≠ .poll r) :
    (s.act defs t .shutdown).2.trace defs after = s.trace defs after ∧
    ((s.act defs t .shutdown).2.run defs after).streams = (s.run defs after).streams ∧
    ((s.act defs t .shutdown).2.run defs after).runners = (s.run defs after).runners := by
  show Live.trace defs { s with cancelled := true } after = _ ∧ _
  generalize hc : ({ s with cancelled := true } : Live) = s'
  have h1 : s'.streams = s.streams := by rw [← hc]
  have h2 : s'.runners = s.runners := by rw [← hc]
  have h3 : (s.act defs t .shutdown).2 = s' := hc
  rw [h3]
  clear hc h3
  induction after generalizing s s' with
  | nil => exact ⟨rfl, h1, h2⟩
  | cons a as ih =>
    have key : (s'.act defs a.now a.act).1 = (s.act defs a.now a.act).1 ∧
        (s'.act defs a.now a.act).2.streams = (s.act defs a.now a.act).2.streams ∧
        (s'.act defs a.now a.act).2.runners = (s.act defs a.now a.act).2.runners := by
      obtain ⟨st, rs, c⟩ := s
      obtain ⟨st', rs', c'⟩ := s'
      simp only at h1 h2
      subst h1 h2
      have hp := ha a List.mem_cons_self
      obtain ⟨now, a⟩ := a
      simp only at hp ⊢
      cases a with
      | client a => exact ⟨rfl, rfl, rfl⟩
      | shutdown => exact ⟨rfl, rfl, rfl⟩
      | poll x => exact absurd rfl (hp x)
      | begin x =>
        simp only [Live.act]
        split <;> exact ⟨rfl, rfl, rfl⟩
      | step x b =>
        simp only [Live.act]
        split
        · split <;> exact ⟨rfl, rfl, rfl⟩
        · exact ⟨rfl, rfl, rfl⟩
      | finish x y b =>
        simp only [Live.act]
        split
        · split
          · split
            · exact ⟨rfl, rfl, rfl⟩
            · split <;> exact ⟨rfl, rfl, rfl⟩
          · exact ⟨rfl, rfl, rfl⟩
        · exact ⟨rfl, rfl, rfl⟩
      | report x y =>
        simp only [Live.act]
        split
        · split <;> exact ⟨rfl, rfl, rfl⟩
        · exact ⟨rfl, rfl, rfl⟩
    obtain ⟨k1, k2, k3⟩ := key
    obtain ⟨g1, g2, g3⟩ := ih (s.act defs a.now a.act).2 (fun b hb => ha b (List.mem_cons_of_mem _ hb)) _ k2 k3
    exact ⟨by simp only [Live.trace, k1, g1], g2, g3⟩

/-- Shut down while it executes one job and another is due, the runner of `liveRest` still reports, and then
stops. -/
example : (((Live.init [eagerRunner (some 1)]).run [eagerRunner (some 1)] (⟨0, .begin 0⟩ :: liveStart ++ liveRest.take 15)).trace [eagerRunner (some 1)]
    (⟨8 * sec, .shutdown⟩ :: liveRest.drop 15)).map (fun e => match e.ev with
      | .shutdown => 1
      | .ended .. => 2
      | .reported .. => 3
      | .stopped .. => 4
      | .moved .. => 5
      | _ => 0) = [1, 2, 3, 4, 0, 0, 0, 0, 0, 0, 0, 0, 0, 0, 0, 0] := by decide +kernel

/-- Without the shutdown it takes the other job. -/
example : ((((Live.init [eagerRunner (some 1)]).run [eagerRunner (some 1)] (⟨0, .begin 0⟩ :: liveStart ++ liveRest.take 15)).trace [eagerRunner (some 1)]
    (liveRest.drop 15)).countP fun e => e.ev.takes 0) = 1 := by decide +kernel

end Rexecutor
