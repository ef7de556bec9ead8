import Verif.Props.Poll

/-!
# C139: a stream that is polled is never stuck

C122 and C134 speak of streams that make each of their steps within `ε` of when they first can. Here:
whatever has happened, such a stream can always go on like that, by its own steps alone, for as long
as one likes.
-/

namespace Rexecutor

/-! ## In memory -/

/-- The next step is not overdue, and if the stream sleeps it can be made when it is awaited. -/
def canMove (ε : Delta) (m t : Time) (msg : Bool) : Wait → Prop
  | .asleep _ since d => t ≤ m + ε ∧ (msg = true ∨ since + d ≤ m)
  | _ => t ≤ m + ε

theorem canMove_soon {ε : Delta} {m t : Time} {msg : Bool} {w : Wait} (h : canMove ε m t msg w) : t ≤ m + ε := by
  cases w with
  | asleep c since d => exact h.1
  | _ => exact h

private theorem lag_asleep {ε : Delta} {m t : Time} {msg : Bool} {c since : Time} {d : Delta}
    (h : onTimeLag ε m t msg (.asleep c since d)) : m ≤ since + d := h.2.2.1

private theorem lag_decided {ε : Delta} {m t : Time} {msg : Bool} {c : Time} {d : Delta}
    (h : onTimeLag ε m t msg (.decided c d)) : 0 ≤ d := h.2.2

/-- After a step of its own, a stream can make the next one at once or when it has slept. -/
theorem canMove_own {ε : Delta} (hε : 0 ≤ ε) {s : Streams} {i : Nat} {r r' : Reader} {m t now : Time} {c : Bool}
    (hr : s.readers[i]? = some r) (hl : onTimeLag ε m t (s.conc.mem.hasMessage r.sub) r.wait)
    (hr' : (s.step now (.stream i c)).2.readers[i]? = some r')
    (hs : (s.step now (.stream i c)).1.isSomething = true) :
    now ≤ (s.step now (.stream i c)).2.movesFrom i now ∧
      canMove ε ((s.step now (.stream i c)).2.movesFrom i now) now ((s.step now (.stream i c)).2.conc.mem.hasMessage r'.sub) r'.wait := by
  have calm : (∀ c since d, r'.wait ≠ .asleep c since d) → now ≤ (s.step now (.stream i c)).2.movesFrom i now ∧
      canMove ε ((s.step now (.stream i c)).2.movesFrom i now) now ((s.step now (.stream i c)).2.conc.mem.hasMessage r'.sub) r'.wait := by
    intro h
    rw [onTime_movesFrom_eq hr']
    cases hw : r'.wait with
    | asleep c since d => exact absurd hw (h _ _ _)
    | _ => simp only [canMove, Time, Delta] at *; omega
  rcases onTime_own_cases (now := now) (b := c) hr with ⟨-, ⟨j, -, -, g⟩ | ⟨w, g, hw⟩⟩ | ⟨hn, -⟩
  · rw [g, Option.some.injEq] at hr'
    subst hr'
    exact calm (by simp)
  · have hr'' := hr'
    rw [g, Option.some.injEq] at hr''
    subst hr''
    cases hwt : r.wait with
    | ready => rw [hwt] at hw; exact calm (by rw [hw.1]; simp)
    | looked f => rw [hwt] at hw; exact calm (by rw [hw.1]; simp)
    | decided c₀ d =>
      rw [hwt] at hw hl
      have hd := lag_decided hl
      rw [onTime_movesFrom_eq hr', hw.1]
      simp only [canMove]
      cases (s.step now (.stream i c)).2.conc.mem.hasMessage r.sub <;> simp <;> simp only [Time, Delta] at * <;> omega
    | asleep c₀ since d => rw [hwt] at hw; exact calm (by simp only at hw; rw [hw]; simp)
  · rw [hs] at hn; cases hn

theorem canMove_step {ε : Delta} (hε : 0 ≤ ε) {s : Streams} (H : StreamInv s) {i : Nat} {r r' : Reader} {m t : Time}
    {a : TStAct} (hr : s.readers[i]? = some r) (hl : onTimeLag ε m t (s.conc.mem.hasMessage r.sub) r.wait)
    (h : canMove ε m t (s.conc.mem.hasMessage r.sub) r.wait) (hm : a.now ≤ m + ε)
    (hr' : (s.step a.now a.act).2.readers[i]? = some r') :
    canMove ε (onTimeNext i m s a) a.now ((s.step a.now a.act).2.conc.mem.hasMessage r'.sub) r'.wait := by
  obtain ⟨now, a⟩ := a
  simp only at *
  have stay : r' = r → (s.conc.mem.hasMessage r.sub = true → (s.step now a).2.conc.mem.hasMessage r.sub = true) →
      canMove ε (min m ((s.step now a).2.movesFrom i now)) now ((s.step now a).2.conc.mem.hasMessage r'.sub) r'.wait := by
    intro e hmsg
    rw [onTime_movesFrom_eq hr']
    subst e
    cases hw : r'.wait with
    | asleep c since d =>
      rw [hw] at h hl
      have h1 := lag_asleep hl
      simp only [canMove] at h ⊢
      cases hms : (s.step now a).2.conc.mem.hasMessage r'.sub with
      | true => simp only [if_true, true_or, and_true]; simp only [Time, Delta] at *; omega
      | false =>
        rcases h.2 with h2 | h2
        · rw [hmsg h2] at hms; cases hms
        · simp only [Bool.false_eq_true, if_false, false_or]
          simp only [Time, Delta] at *; omega
    | _ => simp only [canMove, Time, Delta] at *; omega
  cases ha : a.isStream i with
  | false =>
    have e := stream_unmoved (now := now) hr ha
    rw [hr', Option.some.injEq] at e
    simp only [onTimeNext, ha, Bool.false_and]
    exact stay e (onTime_message_stays H hr ha)
  | true =>
    cases a with
    | stream n b =>
      have hn : n = i := by simpa [StAct.isStream] using ha
      subst hn
      cases hs : (s.step now (.stream n b)).1.isSomething with
      | true =>
        simp only [onTimeNext, ha, hs, Bool.and_self, if_true]
        exact (canMove_own hε hr hl hr' hs).2
      | false =>
        simp only [onTimeNext, hs, Bool.and_false]
        rcases onTime_own_cases (now := now) (b := b) hr with ⟨g, -⟩ | ⟨-, g⟩
        · rw [hs] at g; cases g
        · refine stay ?_ (by rw [g]; exact id)
          rw [g, hr, Option.some.injEq] at hr'
          exact hr'.symm
    | client a => cases ha
    | subscribe x => cases ha

/-- The awaited step can be made. -/
theorem canMove_moves {ε : Delta} (hε : 0 ≤ ε) {s : Streams} {i : Nat} {r : Reader} {m t : Time} (c : Bool)
    (hr : s.readers[i]? = some r) (h : canMove ε m t (s.conc.mem.hasMessage r.sub) r.wait) :
    (s.step (m + ε) (.stream i c)).1.isSomething = true := by
  simp only [Streams.step, hr, Streams.streamStep]
  cases hw : r.wait with
  | ready => rfl
  | looked f => rfl
  | decided c₀ d =>
    simp only
    split
    · split <;> rfl
    · rfl
  | asleep c₀ since d =>
    rw [hw] at h
    simp only
    split
    · rfl
    · rename_i hmsg
      split
      · rfl
      · rename_i hdue
        exfalso
        have hnd : ¬ since + d ≤ m + ε := by simpa using hdue
        rcases h.2 with h2 | h2
        · simp [h2, hnd] at hmsg
        · simp only [Time, Delta] at *; omega

private theorem goes_on {ε : Delta} (hε : 0 ≤ ε) (c : Bool) (n : Nat) {s : Streams} (H : StreamInv s) {i : Nat} {r : Reader}
    {m t : Time} (hr : s.readers[i]? = some r) (hl : onTimeLag ε m t (s.conc.mem.hasMessage r.sub) r.wait)
    (h : canMove ε m t (s.conc.mem.hasMessage r.sub) r.wait) :
    ∃ bs : List TStAct, (∀ b ∈ bs, b.act = .stream i c) ∧ (∃ b ∈ bs, m + (n + 1 : Nat) * ε ≤ b.now) ∧
      (t :: bs.map (·.now)).Pairwise (· ≤ ·) ∧ PromptStream ε i m s bs ∧ ∀ e ∈ s.trace bs, e.isSomething = true := by
  induction n generalizing s r m t with
  | zero =>
    refine ⟨[⟨m + ε, .stream i c⟩], by simp, by simp, by simp [canMove_soon h], ⟨Int.le_refl _, trivial⟩, ?_⟩
    simp [Streams.trace, canMove_moves hε c hr h]
  | succ n ih =>
    have hmv := canMove_moves hε c hr h
    have hts := canMove_soon h
    obtain ⟨r', h1, -, -, h4⟩ := onTimeLag_step (a := ⟨m + ε, .stream i c⟩) hr hl hts (Int.le_refl _)
    have hab := canMove_step hε H hr hl h (a := ⟨m + ε, .stream i c⟩) (Int.le_refl _) h1
    have hnow := (canMove_own hε hr hl h1 hmv).1
    obtain ⟨bs, g1, ⟨b, hb, g2⟩, g3, g4, g5⟩ := ih (streamInv_step H (m + ε) (.stream i c)) h1 h4 hab
    have hnext : onTimeNext i m s ⟨m + ε, .stream i c⟩ = (s.step (m + ε) (.stream i c)).2.movesFrom i (m + ε) := by
      simp [onTimeNext, StAct.isStream, hmv]
    refine ⟨⟨m + ε, .stream i c⟩ :: bs, ?_, ⟨b, List.mem_cons_of_mem _ hb, ?_⟩, ?_, ⟨Int.le_refl _, g4⟩, ?_⟩
    · intro b hb
      rcases List.mem_cons.mp hb with e | hb
      · rw [e]
      · exact g1 b hb
    · rw [hnext] at g2
      have e : ((n + 1 + 1 : Nat) : Int) * ε = ((n + 1 : Nat) : Int) * ε + ε := by
        rw [Int.natCast_add (n + 1) 1, Int.add_mul]; simp
      rw [e]
      simp only [Time, Delta] at *; omega
    · rw [List.map_cons, List.pairwise_cons]
      refine ⟨fun u hu => ?_, g3⟩
      rcases List.mem_cons.mp hu with e | hu
      · rw [e]; exact hts
      · exact Int.le_trans hts (List.rel_of_pairwise_cons g3 hu)
    · intro e he
      rcases List.mem_cons.mp he with e' | he
      · rw [e']; exact hmv
      · exact g5 e he

/-- The part before. -/
theorem canMove_run {ε : Delta} (hε : 0 ≤ ε) {s : Streams} (H : StreamInv s) {i : Nat} {r : Reader} {m t : Time} (as : List TStAct)
    (hr : s.readers[i]? = some r) (hl : onTimeLag ε m t (s.conc.mem.hasMessage r.sub) r.wait)
    (h : canMove ε m t (s.conc.mem.hasMessage r.sub) r.wait)
    (hc : (t :: as.map (·.now)).Pairwise (· ≤ ·)) (hp : PromptStream ε i m s as) :
    ∃ r' m', (s.run as).readers[i]? = some r' ∧
      onTimeLag ε m' ((as.map (·.now)).getLastD t) ((s.run as).conc.mem.hasMessage r'.sub) r'.wait ∧
      canMove ε m' ((as.map (·.now)).getLastD t) ((s.run as).conc.mem.hasMessage r'.sub) r'.wait ∧
      ∀ bs, PromptStream ε i m' (s.run as) bs → PromptStream ε i m s (as ++ bs) := by
  induction as generalizing s r m t with
  | nil => exact ⟨r, m, hr, hl, h, fun _ h => h⟩
  | cons a as ih =>
    rw [List.map_cons] at hc
    obtain ⟨r', h1, -, -, h4⟩ := onTimeLag_step hr hl (List.rel_of_pairwise_cons hc (by simp)) hp.1
    obtain ⟨q, m', g1, g2, g3, g4⟩ := ih (streamInv_step H a.now a.act) h1 h4 (canMove_step hε H hr hl h hp.1 h1)
      (List.Pairwise.of_cons hc) hp.2
    refine ⟨q, m', g1, ?_, ?_, fun bs h => ⟨hp.1, g4 bs h⟩⟩
    · rw [List.map_cons, List.getLastD_cons]; exact g2
    · rw [List.map_cons, List.getLastD_cons]; exact g3

private theorem run_both (s : Streams) (l₁ l₂ : List TStAct) : s.run (l₁ ++ l₂) = (s.run l₁).run l₂ := by
  induction l₁ generalizing s with
  | nil => rfl
  | cons a l ih => exact ih _

theorem far_enough {ε : Delta} (hε : 0 < ε) (m T : Time) : ∃ n : Nat, T < m + (n + 1 : Nat) * ε := by
  refine ⟨(T - m).toNat, ?_⟩
  have h1 : T - m ≤ ((T - m).toNat : Int) := Int.self_le_toNat _
  have h2 : (((T - m).toNat + 1 : Nat) : Int) * 1 ≤ (((T - m).toNat + 1 : Nat) : Int) * ε :=
    Int.mul_le_mul_of_nonneg_left hε (by omega)
  simp only [Time, Delta] at *
  omega

theorem sorted_both {t u : Time} {as bs : List Time} (ha : (t :: as).Pairwise (· ≤ ·)) (hu : as.getLastD t = u)
    (hb : (u :: bs).Pairwise (· ≤ ·)) : (t :: (as ++ u :: bs)).Pairwise (· ≤ ·) := by
  induction as generalizing t with
  | nil =>
    simp only [List.getLastD_nil] at hu
    subst hu
    rw [List.nil_append, List.pairwise_cons]
    refine ⟨fun v hv => ?_, hb⟩
    rcases List.mem_cons.mp hv with e | hv
    · rw [e]; exact Int.le_refl _
    · exact List.rel_of_pairwise_cons hb hv
  | cons a as ih =>
    rw [List.getLastD_cons] at hu
    have := ih (List.Pairwise.of_cons ha) hu
    have hta : t ≤ a := List.rel_of_pairwise_cons ha (by simp)
    rw [List.cons_append, List.pairwise_cons]
    refine ⟨fun v hv => ?_, this⟩
    rcases List.mem_cons.mp hv with e | hv
    · rw [e]; exact hta
    · exact Int.le_trans hta (List.rel_of_pairwise_cons this hv)

/-- **C139, in memory.** The backend may be paused. A stream is made at `t₀`; whatever then happens
up to `t₁`, the stream makes each of its steps within `ε` of when it first can. Then it can go on so,
by steps of its own, until after any time `T`, whichever branch `select!` takes. Each of these steps
does something. -/
theorem C139_in_memory {ε : Delta} (hε : 0 < ε) (paused c : Bool) (p as : List TStAct) (x : String) (i : Nat) (t₀ t₁ T : Time)
    (hi : i = ((Streams.init paused).run p).readers.length)
    (hc : (t₀ :: as.map (·.now)).Pairwise (· ≤ ·)) (ht : (as.map (·.now)).getLastD t₀ = t₁)
    (hp : PromptStream ε i t₀ ((Streams.init paused).run (p ++ [⟨t₀, .subscribe x⟩])) as) :
    ∃ bs : List TStAct, (∀ b ∈ bs, b.act = .stream i c) ∧ (∃ b ∈ bs, T < b.now) ∧
      (t₀ :: (as.map (·.now) ++ t₁ :: bs.map (·.now))).Pairwise (· ≤ ·) ∧
      PromptStream ε i t₀ ((Streams.init paused).run (p ++ [⟨t₀, .subscribe x⟩])) (as ++ bs) ∧
      ∀ e ∈ ((Streams.init paused).run (p ++ ⟨t₀, .subscribe x⟩ :: as)).trace bs, e.isSomething = true := by
  have e1 : ((Streams.init paused).run (p ++ ⟨t₀, .subscribe x⟩ :: as)) =
      ((Streams.init paused).run (p ++ [⟨t₀, .subscribe x⟩])).run as := by
    rw [← run_both]; simp
  have hr : ((Streams.init paused).run (p ++ [⟨t₀, .subscribe x⟩])).readers[i]? =
      some { sub := ((Streams.init paused).run p).conc.mem.subs.length, executor := x, wait := .ready } := by
    rw [run_both, hi]
    simp [Streams.run, Streams.step]
  have H₀ := streamInv_run (streamInv_init paused) (p ++ [⟨t₀, .subscribe x⟩])
  have hε' : 0 ≤ ε := Int.le_of_lt hε
  obtain ⟨r, m, h1, h2, h3, h4⟩ := canMove_run hε' H₀ (m := t₀) as hr (Int.le_refl _)
    (by simp only [canMove, Time, Delta] at *; omega) hc hp
  rw [ht] at h2 h3
  obtain ⟨n, hn⟩ := far_enough hε m T
  obtain ⟨bs, g1, ⟨b, hb, g2⟩, g3, g4, g5⟩ := goes_on hε' c n (streamInv_run H₀ as) h1 h2 h3
  refine ⟨bs, g1, ⟨b, hb, Int.lt_of_lt_of_le hn g2⟩, sorted_both hc ht g3, h4 bs g4, ?_⟩
  rw [e1]
  exact g5

/-- A step of a stream that returns nothing leaves the jobs as they are. -/
private theorem keeps_jobs {s : Streams} {i : Nat} {c : Bool} {now : Time} (h : ∀ j, (s.step now (.stream i c)).1 ≠ .returned i j) :
    (s.step now (.stream i c)).2.conc.mem.jobs = s.conc.mem.jobs := by
  revert h
  simp only [Streams.step]
  cases hr : s.readers[i]? with
  | none => exact fun _ => rfl
  | some r =>
    simp only [Streams.streamStep]
    cases hw : r.wait with
    | ready => exact fun _ => rfl
    | looked f => exact fun _ => rfl
    | decided c₀ d =>
      simp only
      split
      · split
        · exact fun h => absurd rfl (h _)
        · exact fun _ => rfl
      · exact fun _ => rfl
    | asleep c₀ since d =>
      simp only
      split
      · exact fun _ => rfl
      · split <;> exact fun _ => rfl

private theorem keeps_executor {s : Streams} {i : Nat} {r : Reader} {now : Time} {a : StAct} (hr : s.readers[i]? = some r) :
    ∃ r', (s.step now a).2.readers[i]? = some r' ∧ r'.executor = r.executor := by
  cases ha : a.isStream i with
  | false => exact ⟨r, stream_unmoved hr ha, rfl⟩
  | true =>
    cases a with
    | stream n b =>
      have hn : n = i := by simpa [StAct.isStream] using ha
      subst hn
      rcases onTime_own_cases (now := now) (b := b) hr with ⟨-, ⟨j, -, -, g⟩ | ⟨w, g, -⟩⟩ | ⟨-, g⟩
      · exact ⟨_, g, rfl⟩
      · exact ⟨_, g, rfl⟩
      · exact ⟨r, by rw [g, hr], rfl⟩
    | client a => cases ha
    | subscribe x => cases ha

private theorem keeps_executor_run {s : Streams} {i : Nat} {r : Reader} (l : List TStAct) (hr : s.readers[i]? = some r) :
    ∃ r', (s.run l).readers[i]? = some r' ∧ r'.executor = r.executor := by
  induction l generalizing s r with
  | nil => exact ⟨r, hr, rfl⟩
  | cons a l ih =>
    obtain ⟨r', g1, g2⟩ := keeps_executor (now := a.now) (a := a.act) hr
    obtain ⟨q, h1, h2⟩ := ih g1
    exact ⟨q, h1, h2.trans g2⟩

private theorem taken {s : Streams} {i : Nat} {r : Reader} {c : Bool} {k : KeyedJob} (l : List TStAct)
    (hl : ∀ b ∈ l, b.act = .stream i c) (hr : s.readers[i]? = some r) (hk : k ∈ s.conc.mem.jobs) (hk' : k ∉ (s.run l).conc.mem.jobs) :
    ∃ l₁ a l₂ j, l = l₁ ++ a :: l₂ ∧ ((s.run l₁).step a.now a.act).1 = .returned i j ∧ j.executor = r.executor := by
  induction l generalizing s r with
  | nil => exact absurd hk hk'
  | cons a l ih =>
    obtain ⟨now, a⟩ := a
    have ha : a = .stream i c := hl ⟨now, a⟩ (by simp)
    subst ha
    by_cases h : ∃ j, (s.step now (.stream i c)).1 = .returned i j
    · obtain ⟨j, hj⟩ := h
      refine ⟨[], _, l, j, rfl, hj, ?_⟩
      simp only [Streams.step, hr, Streams.streamStep] at hj
      cases hw : r.wait with
      | decided c₀ d =>
        rw [hw] at hj
        simp only at hj
        split at hj
        · split at hj
          · rename_i j' m hld
            simp only [StEv.returned.injEq, true_and] at hj
            subst hj
            rcases load_cases now r.executor s.conc.mem with ⟨-, h'⟩ | ⟨l, k', rr, h1, h2, h3, h4, h5⟩
            · rw [h'] at hld; cases hld
            · rw [h5] at hld
              injection hld with hld
              injection hld with hld
              rw [← hld]
              exact (readyFor_iff.mp h2).1
          · cases hj
        · cases hj
      | ready => rw [hw] at hj; cases hj
      | looked f => rw [hw] at hj; cases hj
      | asleep c₀ since d =>
        rw [hw] at hj
        simp only at hj
        split at hj
        · cases hj
        · split at hj <;> cases hj
    · have hkeep := keeps_jobs (s := s) (i := i) (c := c) (now := now) fun j hj => h ⟨j, hj⟩
      obtain ⟨r', hr', hx⟩ := keeps_executor (now := now) (a := .stream i c) hr
      obtain ⟨l₁, b, l₂, j, g1, g2, g3⟩ := ih (fun b hb => hl b (by simp [hb])) hr' (by rw [hkeep]; exact hk) hk'
      exact ⟨⟨now, .stream i c⟩ :: l₁, b, l₂, j, by rw [g1]; rfl, g2, g3.trans hx⟩

private theorem last_mem {l₁ l₂ l₃ : List TStAct} {a b : TStAct} (h : l₃ ++ [b] = l₁ ++ a :: l₂) : b ∈ a :: l₂ := by
  rcases List.eq_nil_or_concat l₂ with e | ⟨l, c, e⟩
  · subst e
    have := List.append_inj_right' h rfl
    simp only [List.cons.injEq, and_true] at this
    simp [this]
  · subst e
    have h' : l₃ ++ [b] = (l₁ ++ a :: l) ++ [c] := by simpa using h
    have := List.append_inj_right' h' rfl
    simp only [List.cons.injEq, and_true] at this
    simp [this]

/-- **C139, in memory, a job waits.** As before; at `t₁` a job of the executor waits. If from then on
nobody but the stream does anything, its steps can be timed so that it returns a job by 30.015 s and
eight times `ε` after `t₁`, or by 15 ms and six times `ε` after the job is due, if that is later. -/
theorem C139_alone {ε : Delta} (hε : 0 < ε) (paused c : Bool) (p as : List TStAct) (x : String) (i : Nat) (t₀ t₁ : Time)
    (k : KeyedJob) (hi : i = ((Streams.init paused).run p).readers.length)
    (hc : (t₀ :: as.map (·.now)).Pairwise (· ≤ ·)) (ht : (as.map (·.now)).getLastD t₀ = t₁)
    (hp : PromptStream ε i t₀ ((Streams.init paused).run (p ++ [⟨t₀, .subscribe x⟩])) as)
    (hk : k ∈ ((Streams.init paused).run (p ++ ⟨t₀, .subscribe x⟩ :: as)).conc.mem.jobs)
    (hw : k.job.status = .scheduled ∨ k.job.status = .retryable) (hx : k.job.executor = x) :
    ∃ (bs : List TStAct) (b : TStAct) (j : Job), (∀ a ∈ bs ++ [b], a.act = .stream i c) ∧
      (t₁ :: (bs ++ [b]).map (·.now)).Pairwise (· ≤ ·) ∧
      b.now ≤ max k.job.scheduledAt (t₁ + 30000000000 + 2 * ε) + 15000000 + 6 * ε ∧
      (((Streams.init paused).run (p ++ ⟨t₀, .subscribe x⟩ :: as ++ bs)).step b.now b.act).1 = .returned i j ∧ j.executor = x := by
  obtain ⟨bs, h1, h2, h3, h4, -⟩ := C139_in_memory hε paused c p as x i t₀ t₁
    (max k.job.scheduledAt (t₁ + 30000000000 + 2 * ε) + 15000000 + 6 * ε) hi hc ht hp
  obtain ⟨bs₁, b, bs₂, e, g1, g2⟩ := C134_in_memory (Int.le_of_lt hε) paused p as bs x i t₀ t₁ k hi h3 h4 hk hw hx h2
  have hsort : (t₁ :: bs.map (·.now)).Pairwise (· ≤ ·) := by
    have := List.Pairwise.of_cons h3
    exact (List.pairwise_append.mp this).2.1
  have cut : ∀ l₁ a l₂, bs = l₁ ++ a :: l₂ → (∀ b ∈ l₁ ++ [a], b.act = .stream i c) ∧
      (t₁ :: (l₁ ++ [a]).map (·.now)).Pairwise (· ≤ ·) := by
    intro l₁ a l₂ e
    rw [show bs = (l₁ ++ [a]) ++ l₂ by simp [e]] at h1 hsort
    refine ⟨fun b hb => h1 b (List.mem_append_left _ hb), ?_⟩
    rw [List.map_append, ← List.cons_append] at hsort
    exact (List.pairwise_append.mp hsort).1
  rcases g2 with ⟨j, g2, g3⟩ | g2
  · exact ⟨bs₁, b, j, (cut _ _ _ e).1, (cut _ _ _ e).2, g1, g2, g3⟩
  · have e1 : ∀ l, ((Streams.init paused).run (p ++ ⟨t₀, .subscribe x⟩ :: as ++ l)) =
        ((Streams.init paused).run (p ++ ⟨t₀, .subscribe x⟩ :: as)).run l := fun l => by rw [run_both]
    obtain ⟨r, hr, hrx⟩ : ∃ r, ((Streams.init paused).run (p ++ ⟨t₀, .subscribe x⟩ :: as)).readers[i]? = some r ∧ r.executor = x := by
      have : ((Streams.init paused).run (p ++ ⟨t₀, .subscribe x⟩ :: as)) =
          ((Streams.init paused).run (p ++ [⟨t₀, .subscribe x⟩])).run as := by
        rw [← run_both]; simp
      rw [this]
      have hr : ((Streams.init paused).run (p ++ [⟨t₀, .subscribe x⟩])).readers[i]? =
          some { sub := ((Streams.init paused).run p).conc.mem.subs.length, executor := x, wait := .ready } := by
        rw [run_both, hi]
        simp [Streams.run, Streams.step]
      exact keeps_executor_run as hr
    rw [List.append_assoc, e1] at g2
    obtain ⟨l₁, a, l₂, j, f1, f2, f3⟩ := taken (bs₁ ++ [b]) (cut _ _ _ e).1 hr hk g2
    have e' : bs = l₁ ++ a :: (l₂ ++ bs₂) := by
      rw [e, show bs₁ ++ b :: bs₂ = (bs₁ ++ [b]) ++ bs₂ by simp, f1]; simp
    refine ⟨l₁, a, j, (cut _ _ _ e').1, (cut _ _ _ e').2, ?_, by rw [e1]; exact f2, f3.trans hrx⟩
    refine Int.le_trans ?_ g1
    have hs := List.Pairwise.of_cons (cut _ _ _ e).2
    rw [f1] at hs
    have hb : b ∈ a :: l₂ := last_mem f1
    rw [List.map_append, List.map_cons] at hs
    rcases List.mem_cons.mp hb with e | hb
    · rw [e]; exact Int.le_refl _
    · exact List.rel_of_pairwise_cons (List.pairwise_append.mp hs).2.1 (List.mem_map_of_mem hb)

/-! ## On Postgres -/

def pgCanMove (ε : Delta) (m t : Time) (r : PgReader) : Prop :=
  match r.wait with
  | .asleep _ since d => t ≤ m + ε ∧ (r.queue ≠ [] ∨ since + d ≤ m)
  | _ => t ≤ m + ε

theorem pgCanMove_soon {ε : Delta} {m t : Time} {r : PgReader} (h : pgCanMove ε m t r) : t ≤ m + ε := by
  unfold pgCanMove at h
  split at h
  · exact h.1
  · exact h

private theorem pgLag_sleeps {ε : Delta} {m t : Time} {c : PgConc} {r : PgReader} (h : pgLag ε 0 m t c r) :
    match r.wait with
    | .asleep _ since d => m ≤ since + d
    | .decided _ d => 0 ≤ d
    | .loading _ d _ => 0 ≤ d
    | _ => True := by
  unfold pgLag at h
  cases hw : r.wait <;> simp only [hw] at h ⊢
  · exact h.2.2
  · exact h.2.1
  · exact h.2.2.1

theorem pgCanMove_step {hash : HashFn} {tie : Int → Nat} {ε : Delta} (hε : 0 ≤ ε) {i : Nat} {own : Bool} {c c' : PgConc}
    {ev : NetEv} {r r' : PgReader} {m t now : Time} {s' : PgNet} (hs : NetSeen hash tie now i own c c' ev r r')
    (hr' : s'.readers[i]? = some r')
    (hl' : match r.wait with
      | .asleep _ since d => m ≤ since + d
      | .decided _ d => 0 ≤ d
      | .loading _ d _ => 0 ≤ d
      | _ => True)
    (h : pgCanMove ε m t r) (hm : now ≤ m + ε) :
    pgCanMove ε (if own then s'.movesFrom i now else min m (s'.movesFrom i now)) now r' ∧
      (own = true → now ≤ s'.movesFrom i now) := by
  rw [pgMovesFrom_eq hr']
  have calm : (∀ c since d, r'.wait ≠ .asleep c since d) →
      pgCanMove ε (if own then (match r'.wait with
        | .asleep _ since delay => if r'.queue = [] then since + delay else now
        | _ => now) else min m (match r'.wait with
        | .asleep _ since delay => if r'.queue = [] then since + delay else now
        | _ => now)) now r' ∧ (own = true → now ≤ (match r'.wait with
        | .asleep _ since delay => if r'.queue = [] then since + delay else now
        | _ => now)) := by
    intro h
    cases hw : r'.wait with
    | asleep c since d => exact absurd hw (h _ _ _)
    | _ =>
      simp only [pgCanMove, hw]
      cases own
      · simp only [Bool.false_eq_true, if_false]; simp only [Time, Delta] at *; omega
      · simp only [if_true]; simp only [Time, Delta] at *; omega
  have sleeps : ∀ c₀ d, 0 ≤ d → own = true → r'.wait = .asleep c₀ now d →
      pgCanMove ε (if own then (match r'.wait with
        | .asleep _ since delay => if r'.queue = [] then since + delay else now
        | _ => now) else min m (match r'.wait with
        | .asleep _ since delay => if r'.queue = [] then since + delay else now
        | _ => now)) now r' ∧ (own = true → now ≤ (match r'.wait with
        | .asleep _ since delay => if r'.queue = [] then since + delay else now
        | _ => now)) := by
    intro c₀ d hd ho hw
    subst ho
    simp only [pgCanMove, hw, if_true]
    by_cases hq : r'.queue = []
    · simp only [hq, if_true, ne_eq, not_true_eq_false, false_or]; simp only [Time, Delta] at *; omega
    · simp only [hq, if_false, ne_eq, not_false_eq_true, true_or, and_true]; simp only [Time, Delta] at *; omega
  cases hs with
  | still q h' ho hc =>
    subst h' ho
    refine ⟨?_, nofun⟩
    simp only [Bool.false_eq_true, if_false]
    cases hw : r.wait with
    | asleep c₀ since d =>
      simp only [pgCanMove, hw] at h hl' ⊢
      by_cases hq : r.queue ++ q = []
      · have hq' : r.queue = [] := (List.append_eq_nil_iff.mp hq).1
        have h2 := h.2.resolve_left (fun h => h hq')
        simp only [hq, if_true, ne_eq, not_true_eq_false, false_or]
        simp only [Time, Delta] at *; omega
      · simp only [hq, if_false, ne_eq, not_false_eq_true, true_or, and_true]
        simp only [Time, Delta] at *; omega
    | _ => simp only [pgCanMove, hw, Time, Delta] at *; omega
  | failed h' he hc => subst h'; exact calm (by simp)
  | returned j h' he hc => subst h'; exact calm (by simp)
  | ready hw h' ho hc => subst h'; exact calm (by simp)
  | looked f hw h' ho hc => subst h'; exact calm (by simp)
  | opens t d hw hd h' ho hc => subst h'; exact calm (by simp)
  | sleeps t d hw hd h' ho hc =>
    subst h'
    rw [hw] at hl'
    exact sleeps t d hl' ho rfl
  | goesOn t d k hw hk h' ho hc => subst h'; exact calm (by simp [hw])
  | gotNone t d k hw hk h' ho hc =>
    subst h'
    rw [hw] at hl'
    exact sleeps t d hl' ho rfl
  | wakes t since d q hw h' ho hc => subst h'; exact calm (by simp)

theorem pgCanMove_moves {hash : HashFn} {parses : Parses} {tie : Int → Nat} {ε : Delta} (hε : 0 ≤ ε) {s : PgNet} {i : Nat}
    {r : PgReader} {m t : Time} (b : Bool) (hr : s.readers[i]? = some r) (h : pgCanMove ε m t r) :
    (s.step hash parses tie (m + ε) (.stream i b)).1.isSomething = true := by
  simp only [PgNet.step, hr, PgNet.streamStep]
  cases hw : r.wait with
  | ready => rfl
  | looked f => rfl
  | decided c₀ d => simp only; split <;> rfl
  | loading c₀ d k => simp only; split <;> rfl
  | asleep c₀ since d =>
    simp only [pgCanMove, hw] at h
    cases hq : r.queue with
    | cons q l => simp only; split <;> rfl
    | nil =>
      have h2 := h.2.resolve_left (fun h => h hq)
      have : since + d ≤ m + ε := by simp only [Time, Delta] at *; omega
      simp [this, NetEv.isSomething]

private theorem always_prompt (own : Bool) (m mf now : Time) (r : PgReader) :
    NextMove 0 own m mf now r (if own then mf else min m mf) := by
  cases own
  · exact ⟨fun _ => Int.min_le_left _ _, .inl (Int.min_le_right _ _)⟩
  · exact ⟨nofun, .inl (Int.le_refl _)⟩

private theorem pg_goes_on {hash : HashFn} {parses : Parses} {ε : Delta} (hε : 0 ≤ ε) (tie : Int → Nat) (c : Bool) (n : Nat)
    {s : PgNet} {i : Nat} {r : PgReader} {m t : Time} (hr : s.readers[i]? = some r) (hl : pgLag ε 0 m t s.conc r)
    (h : pgCanMove ε m t r) :
    ∃ bs : List TNetAct, (∀ b ∈ bs, b.act = .stream i c ∧ b.tie = tie) ∧ (∃ b ∈ bs, m + (n + 1 : Nat) * ε ≤ b.now) ∧
      (t :: bs.map (·.now)).Pairwise (· ≤ ·) ∧ PromptReader hash parses ε i m s bs ∧
      ∀ e ∈ s.trace hash parses bs, e.isSomething = true := by
  induction n generalizing s r m t with
  | zero =>
    refine ⟨[⟨m + ε, tie, .stream i c⟩], by simp, by simp, by simp [pgCanMove_soon h], ⟨Int.le_refl _, trivial⟩, ?_⟩
    simp [PgNet.trace, pgCanMove_moves hε c hr h]
  | succ n ih =>
    have hmv := pgCanMove_moves (hash := hash) (parses := parses) (tie := tie) hε c hr h
    have hts := pgCanMove_soon h
    obtain ⟨r', hr', hs⟩ := net_seen hash parses tie (m + ε) (.stream i c) hr
    have h4 := pgLag_step (Int.le_refl 0) hs hr' hl hts (Int.le_refl _) (always_prompt _ _ _ _ _)
    obtain ⟨hab, hnow⟩ := pgCanMove_step hε hs hr' (pgLag_sleeps hl) h (Int.le_refl _)
    have hown : ((NetAct.stream i c).isStream i && (s.step hash parses tie (m + ε) (.stream i c)).1.isSomething) = true := by
      simp [NetAct.isStream, hmv]
    rw [hown, if_pos rfl] at hab h4
    replace hnow := hnow hown
    obtain ⟨bs, g1, ⟨b, hb, g2⟩, g3, g4, g5⟩ := ih hr' h4 hab
    refine ⟨⟨m + ε, tie, .stream i c⟩ :: bs, ?_, ⟨b, List.mem_cons_of_mem _ hb, ?_⟩, ?_, ⟨Int.le_refl _, ?_⟩, ?_⟩
    · intro b hb
      rcases List.mem_cons.mp hb with e | hb
      · rw [e]; exact ⟨rfl, rfl⟩
      · exact g1 b hb
    · have e : ((n + 1 + 1 : Nat) : Int) * ε = ((n + 1 : Nat) : Int) * ε + ε := by
        rw [Int.natCast_add (n + 1) 1, Int.add_mul]; simp
      rw [e]
      simp only [Time, Delta] at *; omega
    · rw [List.map_cons, List.pairwise_cons]
      refine ⟨fun u hu => ?_, g3⟩
      rcases List.mem_cons.mp hu with e | hu
      · rw [e]; exact hts
      · exact Int.le_trans hts (List.rel_of_pairwise_cons g3 hu)
    · simp only [hown, if_true]
      exact g4
    · intro e he
      rcases List.mem_cons.mp he with e' | he
      · rw [e']; exact hmv
      · exact g5 e he

/-- The part before. -/
theorem pgCanMove_run {hash : HashFn} {parses : Parses} {ε : Delta} (hε : 0 ≤ ε) {s : PgNet} {i : Nat} {r : PgReader}
    {m t : Time} (as : List TNetAct) (hr : s.readers[i]? = some r) (hl : pgLag ε 0 m t s.conc r) (h : pgCanMove ε m t r)
    (hc : (t :: as.map (·.now)).Pairwise (· ≤ ·)) (hp : PromptReader hash parses ε i m s as) :
    ∃ r' m', (s.run hash parses as).readers[i]? = some r' ∧
      pgLag ε 0 m' ((as.map (·.now)).getLastD t) (s.run hash parses as).conc r' ∧
      pgCanMove ε m' ((as.map (·.now)).getLastD t) r' ∧
      ∀ bs, PromptReader hash parses ε i m' (s.run hash parses as) bs → PromptReader hash parses ε i m s (as ++ bs) := by
  induction as generalizing s r m t with
  | nil => exact ⟨r, m, hr, hl, h, fun _ h => h⟩
  | cons a as ih =>
    obtain ⟨hpa, hp⟩ := hp
    rw [List.map_cons] at hc
    obtain ⟨r', hr', hs⟩ := net_seen hash parses a.tie a.now a.act hr
    have h4 := pgLag_step (Int.le_refl 0) hs hr' hl (List.rel_of_pairwise_cons hc (by simp)) hpa (always_prompt _ _ _ _ _)
    obtain ⟨q, m', g1, g2, g3, g4⟩ := ih hr' h4 (pgCanMove_step hε hs hr' (pgLag_sleeps hl) h hpa).1 (List.Pairwise.of_cons hc) hp
    refine ⟨q, m', g1, ?_, ?_, fun bs h => ⟨hpa, g4 bs h⟩⟩
    · rw [List.map_cons, List.getLastD_cons]; exact g2
    · rw [List.map_cons, List.getLastD_cons]; exact g3

/-- **C139, on Postgres.** A stream is made at `t₀` on any node; its listener may not run, and may
fail. Whatever then happens up to `t₁`, the stream makes each of its steps within `ε` of when it
first can. Then it can go on so, by steps of its own, until after any time `T`, whichever branch
`select!` takes and however the database breaks ties. Each of these steps does something. -/
theorem C139_on_postgres (hash : HashFn) (parses : Parses) {ε : Delta} (hε : 0 < ε) (c : Bool) (tie tie' : Int → Nat)
    (p as : List TNetAct) (x : String) (i n : Nat) (t₀ t₁ T : Time)
    (hi : i = (PgNet.run hash parses {} p).readers.length)
    (hc : (t₀ :: as.map (·.now)).Pairwise (· ≤ ·)) (ht : (as.map (·.now)).getLastD t₀ = t₁)
    (hp : PromptReader hash parses ε i t₀ (PgNet.run hash parses {} (p ++ [⟨t₀, tie, .subscribe n x⟩])) as) :
    ∃ bs : List TNetAct, (∀ b ∈ bs, b.act = .stream i c ∧ b.tie = tie') ∧ (∃ b ∈ bs, T < b.now) ∧
      (t₀ :: (as.map (·.now) ++ t₁ :: bs.map (·.now))).Pairwise (· ≤ ·) ∧
      PromptReader hash parses ε i t₀ (PgNet.run hash parses {} (p ++ [⟨t₀, tie, .subscribe n x⟩])) (as ++ bs) ∧
      ∀ e ∈ (PgNet.run hash parses {} (p ++ ⟨t₀, tie, .subscribe n x⟩ :: as)).trace hash parses bs, e.isSomething = true := by
  have e1 : PgNet.run hash parses {} (p ++ ⟨t₀, tie, .subscribe n x⟩ :: as) =
      (PgNet.run hash parses {} (p ++ [⟨t₀, tie, .subscribe n x⟩])).run hash parses as := by
    rw [← pgnet_run_append]; simp
  have hr₀ : (PgNet.run hash parses {} (p ++ [⟨t₀, tie, .subscribe n x⟩])).readers[i]? = some { node := n, executor := x } := by
    rw [pgnet_run_append, hi]
    simp [PgNet.run, PgNet.step]
  have hε' : 0 ≤ ε := Int.le_of_lt hε
  obtain ⟨r, m, h1, h2, h3, h4⟩ := pgCanMove_run hε' (m := t₀) (t := t₀) as hr₀
    (show t₀ ≤ t₀ + 0 by simp only [Time] at *; omega) (show t₀ ≤ t₀ + ε by simp only [Time, Delta] at *; omega) hc hp
  rw [ht] at h2 h3
  obtain ⟨k, hk⟩ := far_enough hε m T
  obtain ⟨bs, g1, ⟨b, hb, g2⟩, g3, g4, g5⟩ := pg_goes_on (hash := hash) (parses := parses) hε' tie' c k h1 h2 h3
  refine ⟨bs, g1, ⟨b, hb, Int.lt_of_lt_of_le hk g2⟩, sorted_both hc ht g3, h4 bs g4, ?_⟩
  rw [e1]
  exact g5

/-- **C139, on Postgres, a row waits.** As before; at `t₁` a row of the executor waits. If from then
on nobody but the stream does anything, its steps can be timed so that by 30.015 s and twelve times
`ε` after `t₁`, or by 15 ms and ten times `ε` after the row is due, if that is later, it has returned
a job or an error, or handed the row out and is about to return it, or finds it locked by a session
that has gone to sleep over it. -/
theorem C139_alone_on_postgres (hash : HashFn) (parses : Parses) {ε : Delta} (hε : 0 < ε) (c : Bool) (tie tie' : Int → Nat)
    (p as : List TNetAct) (x : String) (i n : Nat) (t₀ t₁ : Time) (j : Row)
    (hi : i = (PgNet.run hash parses {} p).readers.length)
    (hc : (t₀ :: as.map (·.now)).Pairwise (· ≤ ·)) (ht : (as.map (·.now)).getLastD t₀ = t₁)
    (hp : PromptReader hash parses ε i t₀ (PgNet.run hash parses {} (p ++ [⟨t₀, tie, .subscribe n x⟩])) as)
    (hj : j ∈ (PgNet.run hash parses {} (p ++ ⟨t₀, tie, .subscribe n x⟩ :: as)).conc.pg.rows)
    (hw : j.status = .scheduled ∨ j.status = .retryable) (hx : j.executor = x) :
    ∃ (bs : List TNetAct) (b : TNetAct), (∀ a ∈ bs ++ [b], a.act = .stream i c ∧ a.tie = tie') ∧
      (t₁ :: (bs ++ [b]).map (·.now)).Pairwise (· ≤ ·) ∧
      b.now ≤ max j.scheduledAt (t₁ + 30000000000 + 2 * ε) + 15000000 + 10 * ε ∧
      let s := PgNet.run hash parses {} (p ++ ⟨t₀, tie, .subscribe n x⟩ :: as ++ bs)
      ((∃ jb, (s.step hash parses b.tie b.now b.act).1 = .returned i jb) ∨
        (s.step hash parses b.tie b.now b.act).1 = .failed i ∨
        s.otherHolds i j.id ∨
        j ∉ (s.step hash parses b.tie b.now b.act).2.conc.pg.rows) := by
  obtain ⟨bs, h1, h2, h3, h4, -⟩ := C139_on_postgres hash parses hε c tie tie' p as x i n t₀ t₁
    (max j.scheduledAt (t₁ + 30000000000 + 2 * ε) + 15000000 + 10 * ε) hi hc ht hp
  obtain ⟨bs₁, b, bs₂, e, g1, g2⟩ := C134_on_postgres hash parses (Int.le_of_lt hε) p as bs x i n t₀ t₁ _ tie j hi h3 h4 hj hw hx
    rfl h2
  have hsort : (t₁ :: bs.map (·.now)).Pairwise (· ≤ ·) := by
    have := List.Pairwise.of_cons h3
    exact (List.pairwise_append.mp this).2.1
  rw [show bs = (bs₁ ++ [b]) ++ bs₂ by simp [e]] at h1 hsort
  refine ⟨bs₁, b, fun a ha => h1 a (List.mem_append_left _ ha), ?_, g1, g2⟩
  rw [List.map_append, ← List.cons_append] at hsort
  exact (List.pairwise_append.mp hsort).1

/-! ## Examples -/

/-- The hypotheses of `C139_in_memory` and `C139_alone` are met by a paused backend with a sleeping
stream and a job nobody has been told of. -/
example : ((0 : Time) :: pausedStart.map (·.now)).Pairwise (· ≤ ·) ∧ (pausedStart.map (·.now)).getLastD 0 = 1 * sec ∧
    PromptStream ms 0 0 ((Streams.init true).run [⟨0, .subscribe "mail"⟩]) pausedStart ∧
    ∃ k ∈ ((Streams.init true).run (⟨0, .subscribe "mail"⟩ :: pausedStart)).conc.mem.jobs,
      k.job.status = .scheduled ∧ k.job.executor = "mail" := by
  decide +kernel

/-- Those of `C139_on_postgres` and `C139_alone_on_postgres` by a node whose listener has ended. -/
example : ((0 : Time) :: deafStart.map (·.now)).Pairwise (· ≤ ·) ∧ (deafStart.map (·.now)).getLastD 0 = 1 * sec ∧
    PromptReader sampleHash sampleParses ms 0 0 (PgNet.run sampleHash sampleParses {} [netAct 0 .connect, netAct 0 (.subscribe 0 "mail")])
      deafStart ∧
    ∃ j ∈ (PgNet.run sampleHash sampleParses {} (netAct 0 .connect :: netAct 0 (.subscribe 0 "mail") :: deafStart)).conc.pg.rows,
      j.status = .scheduled ∧ j.executor = "mail" := by
  decide +kernel

end Rexecutor
