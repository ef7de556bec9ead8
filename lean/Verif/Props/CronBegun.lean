import Verif.Props.Cron
import Verif.Props.LiveToTheEnd
import Verif.Props.PgLiveToTheEnd

/-! # C130: the job of a tick is begun soon after the tick -/

namespace Rexecutor

/-- No delay of the turn is longer than this. -/
def Lags.Within (R O E Q : Nat) (l : Lags) : Prop := l.reading ≤ R ∧ l.oversleep ≤ O ∧ l.enqueue ≤ E ∧ l.rest ≤ Q

private theorem turn_within {c : Cron α β} {t : Time} {l : Lags} {x : Turn} {R O E Q : Nat} (h : c.turn t l = some x) (hl : l.Within R O E Q) :
    c.schedule.next t = some x.tick ∧ x.began = t ∧ x.done ≤ max (x.tick - 10000000) (x.began + R) + O + E ∧
      x.again ≤ max x.tick x.done + Q := by
  obtain ⟨h1, h2, h3, h4⟩ := hl
  unfold Cron.turn at h
  split at h
  · cases h
  · rename_i n hn
    simp only [Option.some.injEq] at h
    subst h
    refine ⟨hn, rfl, ?_, ?_⟩
    · simp only [Time, Delta, ms]; omega
    · simp only [Time, Delta, ms]; split <;> omega

/-- **C130, the enqueue.** Let the delays of a cron runner be bounded: between reading the schedule and the clock by `R`, after the sleep by `O`, of
the enqueue by `E`. The enqueue for a tick has returned by `O` + `E` after 10 ms before the tick – or after the runner had read the clock,
if that was later – and in any case by `R` + `O` + `E` after the tick. -/
theorem C130_enqueued (c : Cron α β) (t : Time) (ls : List Lags) (R O E Q : Nat) (hl : ∀ l ∈ ls, l.Within R O E Q) (x : Turn) (hx : x ∈ c.loop t ls) :
    x.done ≤ max (x.tick - 10000000) (x.began + R) + O + E ∧ x.done ≤ x.tick + R + O + E := by
  obtain ⟨-, -, hlt, -⟩ := C40_on_tick c t ls x hx
  have h1 : x.done ≤ max (x.tick - 10000000) (x.began + R) + O + E := by
    clear hlt
    induction ls generalizing t with
    | nil => simp [Cron.loop] at hx
    | cons l ls ih =>
      simp only [Cron.loop] at hx
      split at hx
      · simp at hx
      · rename_i y hy
        rcases List.mem_cons.mp hx with rfl | hx
        · exact (turn_within hy (hl l (by simp))).2.2.1
        · exact ih _ (fun l h => hl l (List.mem_cons_of_mem _ h)) hx
  refine ⟨h1, ?_⟩
  simp only [Time] at *; omega

/-- **C130, every tick.** If moreover the time from the return of an enqueue, or the tick, until the runner looks at the schedule again is bounded
by `Q`, and ticks are more than `R` + `O` + `E` + `Q` apart, then there is such an enqueue for every tick from the start of the runner up to the last
one served. -/
theorem C130_every_tick (c : Cron α β) (t : Time) (ls : List Lags) (R O E Q : Nat) (hl : ∀ l ∈ ls, l.Within R O E Q)
    (hapart : ∀ u w, c.schedule.tick u → c.schedule.tick w → u < w → u + R + O + E + Q < w)
    (x : Turn) (hx : x ∈ c.loop t ls) (u : Time) (hu : c.schedule.tick u) (htu : t < u) (hux : u ≤ x.tick) :
    ∃ y ∈ c.loop t ls, y.tick = u ∧ y.done ≤ max (u - 10000000) (y.began + R) + O + E ∧ y.done ≤ u + R + O + E := by
  obtain ⟨y, hy, hyu⟩ := C40_no_skip c t ls (by
    intro z hz w hw hzw
    obtain ⟨htick, -⟩ := C40_on_tick c t ls z hz
    have h1 := hapart z.tick w htick hw hzw
    have h2 := (C130_enqueued c t ls R O E Q hl z hz).2
    have h3 : z.again ≤ max z.tick z.done + Q := by
      clear h1 h2 hzw hw htick hux htu hu hx hapart
      induction ls generalizing t with
      | nil => simp [Cron.loop] at hz
      | cons l ls ih =>
        simp only [Cron.loop] at hz
        split at hz
        · simp at hz
        · rename_i y hy
          rcases List.mem_cons.mp hz with rfl | hz
          · exact (turn_within hy (hl l (by simp))).2.2.2
          · exact ih _ (fun l h => hl l (List.mem_cons_of_mem _ h)) hz
    simp only [Time] at *; omega) x hx u hu htu hux
  obtain ⟨h1, h2⟩ := C130_enqueued c t ls R O E Q hl y hy
  rw [hyu] at h1 h2
  exact ⟨y, hy, hyu, h1, h2⟩

/-- **C130, in memory.** Runner `r` executes the jobs of the cron runner's executor and is as prompt as in C124. The enqueue of a turn of
the cron runner stores job `id` and has returned when the cron runner goes on. The job is left alone; until a runner gets it nothing is put in front
of it and there are never more than `N` jobs ahead of it. Then a runner has begun with it by `R` + `O` + `E` + 15 ms + 6 `ε` + `D` + `N` (3 `ε` + `D`) after the
tick. -/
theorem C130_in_memory (c : Cron α β) (t : Time) (ls : List Lags) (R O E Q : Nat) (hl : ∀ l ∈ ls, l.Within R O E Q) (y : Turn) (hy : y ∈ c.loop t ls)
    {ε D : Delta} (hε : 0 ≤ ε) (hD : 0 ≤ D) (defs : List Runner) (r : Nat) (d : Runner) (hd : defs[r]? = some d) (hname : c.consts.name = d.name)
    (p as bs : List TLvAct) (t₀ : Time) (id : Int) (e : EnqueuableJob) (he : y.job = some e)
    (hbegin : (((Live.init defs).run defs p).act defs t₀ (.begin r)).1 = .begun r)
    (hc : (p.map (·.now) ++ t₀ :: (as.map (·.now) ++ y.done :: bs.map (·.now))).Pairwise (· ≤ ·))
    (hp : PromptRunner ε D defs r t₀ t₀ ((Live.init defs).run defs (p ++ [⟨t₀, .begin r⟩])) (as ++ bs))
    (hins : ∃ x ∈ (Live.init defs).trace defs (p ++ ⟨t₀, .begin r⟩ :: as), x.ev = .client (.inserted id e))
    (hret : ∃ x ∈ (Live.init defs).trace defs (p ++ ⟨t₀, .begin r⟩ :: as), x.ev = .client (.woke id))
    (hids : idsTaken (backHistory (Live.seen defs false (p ++ ⟨t₀, .begin r⟩ :: as ++ bs))) ≤ 4294967296)
    (hleave : ClientsLeave id (Live.seen defs false (p ++ ⟨t₀, .begin r⟩ :: as ++ bs)))
    (N : Nat) (hpass : ∀ l₁ b l₂, p ++ ⟨t₀, .begin r⟩ :: as ++ bs = l₁ ++ b :: l₂ →
      (∀ x ∈ (Live.init defs).trace defs l₁, x.ev.handsOut id = false) →
      ∀ k ∈ ((Live.init defs).run defs l₁).streams.conc.mem.jobs, k.job.id = id →
        (((Live.init defs).run defs l₁).act defs b.now b.act).1.LetsPass k.job b.now ∧
        ((Live.init defs).run defs l₁).streams.conc.mem.jobs.countP (fun a => decide (Ahead k.job a.job)) ≤ N)
    (hlate : ∃ b ∈ bs, y.tick + R + O + E + 15000000 + 6 * ε + D + N * (3 * ε + D) < b.now) :
    ∃ l₁ b l₂, p ++ ⟨t₀, .begin r⟩ :: as ++ bs = l₁ ++ b :: l₂ ∧ b.now ≤ y.tick + R + O + E + 15000000 + 6 * ε + D + N * (3 * ε + D) ∧
      ∃ r' d' i j, (((Live.init defs).run defs l₁).act defs b.now b.act).1 = .moved r' (.returned i j) (some (d'.start j)) ∧
        defs[r']? = some d' ∧ j.id = id := by
  obtain ⟨j1, j2, -⟩ := C40_job c t ls y hy e he
  obtain ⟨-, hdone⟩ := C130_enqueued c t ls R O E Q hl y hy
  have hmax : max e.scheduledAt y.done ≤ y.tick + R + O + E := by rw [j1]; simp only [Time] at *; omega
  obtain ⟨b, hb, hlate⟩ := hlate
  obtain ⟨l₁, b', l₂, h1, h2, h3⟩ := C129_in_memory hε hD defs r d hd p as bs t₀ y.done id e hbegin hc hp hins hret (j2.trans hname) hids hleave N hpass
    ⟨b, hb, by
      generalize (N : Int) * (3 * ε + D) = z at *
      generalize max e.scheduledAt y.done = M at *
      simp only [Time, Delta] at *; omega⟩
  refine ⟨l₁, b', l₂, h1, ?_, h3⟩
  generalize (N : Int) * (3 * ε + D) = z at *
  generalize max e.scheduledAt y.done = M at *
  simp only [Time, Delta] at *; omega

/-- **C130, in memory, to the end.** If moreover the enqueue of the turn is made after the runner has subscribed, the executor gives jobs at least
one attempt and the hypotheses of C126 hold from then on, then the job is `Complete`, `Cancelled` or `Discarded`, or has been pruned, by `R` + `O` + `E` and
one round for every attempt and every snooze after the tick. -/
theorem C130_over_in_memory (c : Cron α β) (t : Time) (ls : List Lags) (R O E Q : Nat) (hl : ∀ l ∈ ls, l.Within R O E Q) (y : Turn) (hy : y ∈ c.loop t ls)
    {ε D B Δ : Delta} (hε : 0 ≤ ε) (hD : 0 ≤ D) (hB : 0 ≤ B) (hΔ : 0 ≤ Δ) (defs : List Runner) (r : Nat) (d : Runner)
    (hd : defs[r]? = some d) (p as bs : List TLvAct) (v : TLvAct) (t₀ : Time) (id : Int) (e : EnqueuableJob) (he : y.job = some e)
    (hbegin : (((Live.init defs).run defs p).act defs t₀ (.begin r)).1 = .begun r)
    (hc : (t₀ :: (as.map (·.now) ++ v.now :: bs.map (·.now))).Pairwise (· ≤ ·))
    (hp : PromptRunner ε D defs r t₀ t₀ ((Live.init defs).run defs (p ++ [⟨t₀, .begin r⟩])) (as ++ v :: bs))
    (hins : (((Live.init defs).run defs (p ++ ⟨t₀, .begin r⟩ :: as)).act defs v.now v.act).1 = .client (.inserted id e))
    (hret : ∃ x ∈ ((Live.init defs).run defs (p ++ ⟨t₀, .begin r⟩ :: as ++ [v])).trace defs bs, x.ev = .client (.woke id) ∧ x.now ≤ y.done)
    (hx : c.consts.name = d.name) (hm : 0 < c.consts.maxAttempts)
    (hids : idsTaken (backHistory (Live.seen defs false (p ++ ⟨t₀, .begin r⟩ :: as ++ [v] ++ bs))) ≤ 4294967296)
    (hleave : ClientsLeave id (Live.seen defs false (p ++ ⟨t₀, .begin r⟩ :: as ++ [v] ++ bs)))
    (N : Nat) (hpass : ∀ bs₁ b bs₂, bs = bs₁ ++ b :: bs₂ →
      ∀ k' ∈ ((Live.init defs).run defs (p ++ ⟨t₀, .begin r⟩ :: as ++ [v] ++ bs₁)).streams.conc.mem.jobs, k'.job.id = id → k'.job.available →
        (((Live.init defs).run defs (p ++ ⟨t₀, .begin r⟩ :: as ++ [v] ++ bs₁)).act defs b.now b.act).1.LetsPass k'.job b.now ∧
        ((Live.init defs).run defs (p ++ ⟨t₀, .begin r⟩ :: as ++ [v] ++ bs₁)).streams.conc.mem.jobs.countP
          (fun a => decide (Ahead k'.job a.job)) ≤ N)
    (hrun : ∀ es₁ e es₂, ((Live.init defs).run defs (p ++ ⟨t₀, .begin r⟩ :: as ++ [v])).trace defs bs = es₁ ++ e :: es₂ →
      ∀ r' i j st, e.ev = .moved r' (.returned i j) (some st) → j.id = id → ∃ t, st = .running t ∧
        ((∃ e' ∈ es₂, e.now + B < e'.now) → ∃ e' ∈ es₂, e'.now ≤ e.now + B ∧ ∃ ev, e'.ev = .reported r' t ev))
    (hdelay : ∀ e ∈ ((Live.init defs).run defs (p ++ ⟨t₀, .begin r⟩ :: as ++ [v])).trace defs bs, ∀ r' t ev next, e.ev = .reported r' t ev →
      (ev = .op (.snoozed id next) .unit ∨ ∃ x, ev = .op (.retryable id next x) .unit) → next ≤ e.now + Δ)
    (S : Nat) (hsnooze : (((Live.init defs).run defs (p ++ ⟨t₀, .begin r⟩ :: as ++ [v])).trace defs bs).countP (fun e => e.ev.snoozesJob id) ≤ S)
    (hlate : ∃ b ∈ bs, y.tick + R + O + E + (c.consts.maxAttempts + S) * (15000000 + 6 * ε + D + N * (3 * ε + D) + B + Δ) < b.now) :
    ∀ k' ∈ ((Live.init defs).run defs (p ++ ⟨t₀, .begin r⟩ :: as ++ [v] ++ bs)).streams.conc.mem.jobs, k'.job.id = id →
      k'.job.status = .complete ∨ k'.job.status = .cancelled ∨ k'.job.status = .discarded := by
  obtain ⟨j1, j2, -, j4, -⟩ := C40_job c t ls y hy e he
  obtain ⟨-, hdone⟩ := C130_enqueued c t ls R O E Q hl y hy
  have hmax : max e.scheduledAt y.done ≤ y.tick + R + O + E := by rw [j1]; simp only [Time] at *; omega
  obtain ⟨b, hb, hlate⟩ := hlate
  refine C129_over_in_memory hε hD hB hΔ defs r d hd p as bs v t₀ y.done id e hbegin hc hp hins hret (j2.trans hx) (by rw [j4]; exact hm) hids hleave N hpass hrun
    hdelay S hsnooze ⟨b, hb, ?_⟩
  rw [j4]
  exact Int.lt_of_le_of_lt (Int.add_le_add_right hmax _) hlate

/-- **C130, on Postgres.** The same with the hypotheses of C126 on Postgres; ticks are whole microseconds. -/
theorem C130_over_on_postgres (c : Cron α β) (t : Time) (ls : List Lags) (R O E Q : Nat) (hl : ∀ l ∈ ls, l.Within R O E Q) (y : Turn) (hy : y ∈ c.loop t ls)
    (hash : HashFn) (parses : Parses) {ε δ D H B Δ : Delta} (hε : 0 ≤ ε) (hδ : 0 ≤ δ) (hD : 0 ≤ D) (hH : 0 ≤ H) (hB : 0 ≤ B)
    (hΔ : 0 ≤ Δ) (defs : List Runner) (on : List Nat) (r n i : Nat) (d : Runner) (hd : defs[r]? = some d) (p as bs : List TPLAct) (v : TPLAct) (t₀ : Time)
    (tie : Int → Nat) (e : EnqueuableJob) (he : y.job = some e) (hwhole : 1000 ∣ y.tick) (row : Row) (t₂ : Time) (key : Option Int)
    (hrow : row = e.toRow t₂ row.id key) (hv : v.now ≤ y.done) (uc : Option Criteria) (node node₂ : PgNode)
    (hbegin : (((PgLive.init defs on).run hash parses defs p).act hash parses defs tie t₀ (.begin r)).1 = .begun r)
    (hon : (((PgLive.init defs on).run hash parses defs p).runners[r]?.map (·.node)) = some n)
    (hi : i = ((PgLive.init defs on).run hash parses defs p).net.readers.length)
    (h0 : ((PgLive.init defs on).run hash parses defs p).net.nodes[n]? = some node) (hl0 : node.listening = true)
    (hun : ∀ a ∈ as ++ [v] ++ bs, a.act ≠ .reconnect n)
    (h2 : ((PgLive.init defs on).run hash parses defs (p ++ ⟨t₀, tie, .begin r⟩ :: as ++ [v] ++ bs)).net.nodes[n]? = some node₂) (hl2 : node₂.listening = true)
    (hc : (t₀ :: (as.map (·.now) ++ v.now :: bs.map (·.now))).Pairwise (· ≤ ·))
    (hp : PromptPgRunner hash parses ε δ D defs r n t₀ t₀ t₀ ((PgLive.init defs on).run hash parses defs (p ++ [⟨t₀, tie, .begin r⟩])) (as ++ [v] ++ bs))
    (hins : (((PgLive.init defs on).run hash parses defs (p ++ ⟨t₀, tie, .begin r⟩ :: as)).act hash parses defs v.tie v.now v.act).1 = .db (.inserted row uc))
    (hx : c.consts.name = d.name) (hm : 0 < c.consts.maxAttempts)
    (hleave : OthersLeave row.id (PgLive.seen hash parses defs on (p ++ ⟨t₀, tie, .begin r⟩ :: as ++ [v] ++ bs)))
    (N I : Nat) (hpass : ∀ bs₁ b bs₂, bs = bs₁ ++ b :: bs₂ →
      ∀ j' ∈ ((PgLive.init defs on).run hash parses defs (p ++ ⟨t₀, tie, .begin r⟩ :: as ++ [v] ++ bs₁)).net.conc.pg.rows, j'.id = row.id → (j'.status = .scheduled ∨ j'.status = .retryable) →
        (∀ ev, (((PgLive.init defs on).run hash parses defs (p ++ ⟨t₀, tie, .begin r⟩ :: as ++ [v] ++ bs₁)).act hash parses defs b.tie b.now b.act).1.back = some ev →
          ev.QueuesBehind j' b.now ((PgLive.init defs on).run hash parses defs (p ++ ⟨t₀, tie, .begin r⟩ :: as ++ [v] ++ bs₁)).net.conc.pg.rows) ∧
        ((PgLive.init defs on).run hash parses defs (p ++ ⟨t₀, tie, .begin r⟩ :: as ++ [v] ++ bs₁)).net.conc.pg.rows.countP (fun a => decide (RowAhead j' a)) +
          ((PgLive.init defs on).run hash parses defs (p ++ ⟨t₀, tie, .begin r⟩ :: as ++ [v] ++ bs₁)).net.conc.sessions.countP (fun s => s.takesFor d.name) ≤ N ∧
        ∀ node, ((PgLive.init defs on).run hash parses defs (p ++ ⟨t₀, tie, .begin r⟩ :: as ++ [v] ++ bs₁)).net.nodes[n]? = some node → node.inbox.length ≤ I)
    (hok : ∀ e ∈ ((PgLive.init defs on).run hash parses defs (p ++ ⟨t₀, tie, .begin r⟩ :: as ++ [v])).trace hash parses defs bs, e.ev.errs r = false)
    (hheld : ∀ bs₁ bs₂ (τ : Time), bs = bs₁ ++ bs₂ → v.now ≤ τ → (∀ b ∈ bs₁, b.now ≤ τ) →
      ∀ j' ∈ ((PgLive.init defs on).run hash parses defs (p ++ ⟨t₀, tie, .begin r⟩ :: as ++ [v] ++ bs₁)).net.conc.pg.rows, j'.id = row.id → (j'.status = .scheduled ∨ j'.status = .retryable) →
        ((PgLive.init defs on).run hash parses defs (p ++ ⟨t₀, tie, .begin r⟩ :: as ++ [v] ++ bs₁)).net.otherHolds i row.id → (∃ b ∈ bs₂, τ + H < b.now) →
        ∃ e ∈ ((PgLive.init defs on).run hash parses defs (p ++ ⟨t₀, tie, .begin r⟩ :: as ++ [v] ++ bs₁)).trace hash parses defs bs₂, e.now ≤ τ + H ∧ e.ev.handsOut row.id = true)
    (hrun : ∀ es₁ e es₂, ((PgLive.init defs on).run hash parses defs (p ++ ⟨t₀, tie, .begin r⟩ :: as ++ [v])).trace hash parses defs bs = es₁ ++ e :: es₂ →
      e.ev.handsOut row.id = true → (∃ e' ∈ es₂, e.now + B < e'.now) → ∃ e' ∈ es₂, e'.now ≤ e.now + B ∧ e'.ev.reportsOf row.id = true)
    (hdelay : ∀ e ∈ ((PgLive.init defs on).run hash parses defs (p ++ ⟨t₀, tie, .begin r⟩ :: as ++ [v])).trace hash parses defs bs, ∀ r' t ev next, e.ev = .reported r' t ev →
      (ev = .stmt (.snoozed row.id next) .unit ∨ ∃ x, ev = .stmt (.retryable row.id next x) .unit) → next ≤ e.now + Δ)
    (S : Nat) (hsnooze : (((PgLive.init defs on).run hash parses defs (p ++ ⟨t₀, tie, .begin r⟩ :: as ++ [v])).trace hash parses defs bs).countP
      (fun e => e.ev.snoozesJob row.id) ≤ S)
    (hlate : ∃ b ∈ bs, y.tick + R + O + E + (c.consts.maxAttempts + S) *
      (I * δ + 15001000 + 10 * ε + D + (N + 1) * (7 * ε + D) + H + B + Δ) < b.now) :
    ∀ j' ∈ ((PgLive.init defs on).run hash parses defs (p ++ ⟨t₀, tie, .begin r⟩ :: as ++ [v] ++ bs)).net.conc.pg.rows, j'.id = row.id →
      j'.status = .complete ∨ j'.status = .cancelled ∨ j'.status = .discarded := by
  obtain ⟨j1, j2, -, j4, -⟩ := C40_job c t ls y hy e he
  obtain ⟨-, hdone⟩ := C130_enqueued c t ls R O E Q hl y hy
  have r1 : row.scheduledAt = y.tick := by rw [hrow]; show pgTime e.scheduledAt = _; rw [j1]; exact pgTime_whole hwhole
  have r2 : row.executor = d.name := by rw [hrow]; exact j2.trans hx
  have r3 : row.maxAttempts = (c.consts.maxAttempts : Int) := by rw [hrow]; show ((e.maxAttempts : Nat) : Int) = _; rw [j4]
  have hmax : max row.scheduledAt v.now ≤ y.tick + R + O + E := by rw [r1]; simp only [Time] at *; omega
  obtain ⟨b, hb, hlate⟩ := hlate
  refine C129_on_postgres hash parses hε hδ hD hH hB hΔ defs on r n i d hd p as bs v t₀ tie row uc node node₂ hbegin hon hi h0 hl0 hun h2 hl2 hc hp hins r2
    (by rw [r3]; exact Int.natCast_pos.mpr hm) hleave N I hpass hok hheld hrun hdelay S hsnooze ⟨b, hb, ?_⟩
  rw [r3]
  exact Int.lt_of_le_of_lt (Int.add_le_add_right hmax _) hlate

/-! ## Examples -/

/-- The job of the first tick. -/
def cbJob : EnqueuableJob := (sampleCron.job (990 * ms) (1 * sec)).getD sampleEnq

/-- The cron runner's call takes from 990 ms to 993 ms. -/
def cbStart : List TLvAct :=
  [⟨0, .poll 0⟩, ⟨0, .step 0 false⟩, ⟨ms, .step 0 false⟩, ⟨2 * ms, .step 0 false⟩, ⟨3 * ms, .step 0 false⟩,
   ⟨990 * ms, .client (.start cbJob)⟩, ⟨991 * ms, .client (.advance 0)⟩, ⟨992 * ms, .client (.advance 0)⟩, ⟨993 * ms, .client (.advance 0)⟩,
   ⟨993 * ms, .client (.advance 0)⟩]

/-- The job is executed from 994 ms, as it is taken for due shortly before it is, to 2 s. -/
def cbRest : List TLvAct :=
  [⟨994 * ms, .poll 0⟩, ⟨994 * ms, .step 0 false⟩, ⟨994 * ms, .step 0 false⟩, ⟨994 * ms, .step 0 false⟩, ⟨994 * ms, .step 0 false⟩,
   ⟨2 * sec, .finish 0 0 { ending := .returns .done }⟩, ⟨2 * sec, .report 0 0⟩,
   ⟨2 * sec + ms, .poll 0⟩, ⟨2 * sec + ms, .step 0 false⟩, ⟨2 * sec + 2 * ms, .step 0 false⟩, ⟨2 * sec + 3 * ms, .step 0 false⟩,
   ⟨2 * sec + 4 * ms, .step 0 false⟩, ⟨4 * sec, .client (.op (.query (.statusEqual .complete)))⟩]

/-- The cron runner is never late but for the 3 ms of the call. -/
example : ((sampleCron.loop 0 [⟨0, 0, 3000000, 0⟩]).map fun x => (x.tick, x.done, x.job.map fun j => (j.executor, j.scheduledAt))) =
      [(1 * sec, 993 * ms, some ("mail", 1 * sec))] ∧
    Lags.Within 0 0 3000000 0 ⟨0, 0, 3000000, 0⟩ ∧
    cbJob.scheduledAt = 1 * sec ∧ cbJob.executor = "mail" ∧ cbJob.maxAttempts = 2 ∧
    ((sampleCron.loop 0 [⟨0, 0, 3000000, 0⟩]).map fun x => (x.job.map fun j => (j.tags, j.priority))) = [some (cbJob.tags, cbJob.priority)] := by
  refine ⟨by decide +kernel, ?_, by decide +kernel⟩
  unfold Lags.Within; decide

/-- The runner meets the hypotheses of `C130_in_memory` with ε = 1 ms, D = 2 s and N = 0, … -/
example : ((([] : List TLvAct).map (·.now)) ++ (0 : Time) :: (cbStart.map (·.now) ++ 993 * ms :: cbRest.map (·.now))).Pairwise (· ≤ ·) ∧
    PromptRunner ms (2 * sec) [eagerRunner (some 1)] 0 0 0 ((Live.init [eagerRunner (some 1)]).run [eagerRunner (some 1)] [⟨0, .begin 0⟩])
      (cbStart ++ cbRest) ∧
    (((Live.init [eagerRunner (some 1)]).trace [eagerRunner (some 1)] (⟨0, .begin 0⟩ :: cbStart)).filterMap fun x => match x.ev with
      | .client (.inserted id e) => some ("inserted", id, e.executor, e.scheduledAt)
      | .client (.woke id) => some ("returned", id, "", x.now)
      | _ => none) = [("inserted", 0, "mail", 1 * sec), ("returned", 0, "", 993 * ms)] ∧
    idsTaken (backHistory (Live.seen [eagerRunner (some 1)] false (⟨0, .begin 0⟩ :: cbStart ++ cbRest))) = 1 ∧
    (∀ x ∈ Live.seen [eagerRunner (some 1)] false (⟨0, .begin 0⟩ :: cbStart ++ cbRest), x.ev.clientTouches 0 = false) ∧
    ∃ b ∈ cbRest, 1 * sec + 0 + 0 + 3000000 + 15000000 + 6 * ms + 2 * sec + 0 * (3 * ms + 2 * sec) < b.now := by
  decide +kernel

/-- … with no job ahead of it, and so the job is begun; it was at 994 ms. -/
example : (∀ n ∈ List.range (⟨0, .begin 0⟩ :: cbStart ++ cbRest).length,
    (∀ x ∈ (Live.init [eagerRunner (some 1)]).trace [eagerRunner (some 1)] ((⟨0, .begin 0⟩ :: cbStart ++ cbRest).take n), x.ev.handsOut 0 = false) →
    ∀ k ∈ ((Live.init [eagerRunner (some 1)]).run [eagerRunner (some 1)] ((⟨0, .begin 0⟩ :: cbStart ++ cbRest).take n)).streams.conc.mem.jobs,
      k.job.id = 0 →
      (∀ b ∈ ((⟨0, .begin 0⟩ :: cbStart ++ cbRest).drop n).head?, (((Live.init [eagerRunner (some 1)]).run [eagerRunner (some 1)]
        ((⟨0, .begin 0⟩ :: cbStart ++ cbRest).take n)).act [eagerRunner (some 1)] b.now b.act).1.LetsPass k.job b.now) ∧
      ((Live.init [eagerRunner (some 1)]).run [eagerRunner (some 1)] ((⟨0, .begin 0⟩ :: cbStart ++ cbRest).take n)).streams.conc.mem.jobs.countP
        (fun a => decide (Ahead k.job a.job)) ≤ 0) ∧
    (((Live.init [eagerRunner (some 1)]).trace [eagerRunner (some 1)] (⟨0, .begin 0⟩ :: cbStart ++ cbRest)).filterMap fun x => match x.ev with
      | .moved _ (.returned _ j) _ => some (x.now, j.id)
      | _ => none) = [(994 * ms, 0)] := by
  decide +kernel

/-- Ticks a second apart are far enough apart for delays of 3 ms. -/
example (u w : Time) (hu : everySecond.tick u) (hw : everySecond.tick w) (h : u < w) : u + (0 : Nat) + (0 : Nat) + (3000000 : Nat) + (0 : Nat) < w := by
  obtain ⟨a, rfl⟩ := hu
  obtain ⟨b, rfl⟩ := hw
  simp only [Time] at *
  omega

end Rexecutor
