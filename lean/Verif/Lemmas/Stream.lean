import Verif.Lemmas.History
import Verif.Spec.Stream

/-! Lemmas about streams: who is told about what. -/

namespace Rexecutor

/-- Channels only get longer. -/
def SubsGrow (m m' : Mem) : Prop :=
  m'.paused = m.paused ∧
  ∀ (n : Nat) (sb : Sub), m.subs[n]? = some sb → ∃ q, m'.subs[n]? = some { sb with queue := sb.queue ++ q }

/-- Every subscriber of the job's executor got a message. -/
def Told (m m' : Mem) (j : Job) : Prop :=
  ∀ (n : Nat) (sb : Sub), m.subs[n]? = some sb → sb.executor = j.executor →
    ∃ q, q ≠ [] ∧ m'.subs[n]? = some { sb with queue := sb.queue ++ q }

/-- Nothing is sent. -/
def Quiet (m m' : Mem) : Prop := ∀ (n : Nat) (sb : Sub), m.subs[n]? = some sb → m'.subs[n]? = some sb

theorem SubsGrow.same {m m' : Mem} (h : m'.subs = m.subs) (hp : m'.paused = m.paused) : SubsGrow m m' :=
  ⟨hp, fun n sb hs => ⟨[], by rw [h, hs]; simp⟩⟩

theorem Quiet.same {m m' : Mem} (h : m'.subs = m.subs) : Quiet m m' := fun n sb hs => by rw [h, hs]

theorem notify_grow (x : String) (t : Time) (m : Mem) : SubsGrow m (m.notify x t) := by
  refine ⟨by simp, fun n sb hs => ?_⟩
  unfold Mem.notify
  split
  · exact ⟨[], by simp [hs]⟩
  · simp only [List.getElem?_map, hs, Option.map_some]
    split
    · exact ⟨[t], rfl⟩
    · exact ⟨[], by simp⟩

theorem notify_told {x : String} {t : Time} {m : Mem} {j : Job} (hp : m.paused = false)
    (hx : j.executor = x) : Told m (m.notify x t) j := by
  intro n sb hs he
  unfold Mem.notify
  rw [if_neg (by simp [hp])]
  simp only [List.getElem?_map, hs, Option.map_some]
  rw [if_pos (he.trans hx)]
  exact ⟨[t], by simp, rfl⟩

theorem notify_quiet {x : String} {t : Time} {m : Mem} (hp : m.paused = true) :
    Quiet m (m.notify x t) := by
  intro n sb hs
  unfold Mem.notify
  rw [if_pos hp, hs]

theorem notifyAll_grow (t : Time) (m : Mem) : SubsGrow m (m.notifyAll t) := by
  refine ⟨rfl, fun n sb hs => ⟨[t], ?_⟩⟩
  simp [Mem.notifyAll, hs]

theorem onJob_subs (id : Int) (f : Job → Job) (w : Bool) (m : Mem) :
    SubsGrow m (m.onJob id f w).2 ∧ (m.paused = true → Quiet m (m.onJob id f w).2) ∧
    ∀ k ∈ (m.onJob id f w).2.jobs, k ∈ m.jobs ∨
      ((∃ k₀ ∈ m.jobs, k.job = f k₀.job) ∧
        (w = true → m.paused = false → Told m (m.onJob id f w).2 k.job)) := by
  unfold Mem.onJob
  cases h : updateById id f m.jobs with
  | none => exact ⟨.same rfl rfl, fun _ => .same rfl, fun k hk => .inl hk⟩
  | some p =>
    obtain ⟨ks', j⟩ := p
    obtain ⟨l, k, r, h1, h2, h3, h4, h5⟩ := updateById_some h
    simp only
    cases w with
    | false =>
      refine ⟨.same rfl rfl, fun _ => .same rfl, fun x hx => ?_⟩
      simp only [Bool.false_eq_true, if_false, h4] at hx
      rw [h1]
      simp only [List.mem_append, List.mem_cons] at hx ⊢
      rcases hx with hx | rfl | hx
      · exact .inl (.inl hx)
      · exact .inr ⟨⟨k, .inr (.inl rfl), rfl⟩, by simp⟩
      · exact .inl (.inr (.inr hx))
    | true =>
      simp only [if_true]
      refine ⟨?_, ?_, fun x hx => ?_⟩
      · exact notify_grow j.executor j.scheduledAt { m with jobs := ks' }
      · intro hp; exact notify_quiet (m := { m with jobs := ks' }) hp
      · simp only [notify_jobs, h4] at hx
        rw [h1]
        simp only [List.mem_append, List.mem_cons] at hx ⊢
        rcases hx with hx | rfl | hx
        · exact .inl (.inl hx)
        · refine .inr ⟨⟨k, .inr (.inl rfl), rfl⟩, fun _ hp => ?_⟩
          exact notify_told (m := { m with jobs := ks' }) hp (by rw [h5])
        · exact .inl (.inr (.inr hx))

theorem load_subs (now : Time) (x : String) (m : Mem) :
    (m.load now x).2.subs = m.subs ∧ (m.load now x).2.paused = m.paused ∧
    ∀ k ∈ (m.load now x).2.jobs, k.job.available → k ∈ m.jobs := by
  rcases load_cases now x m with ⟨-, h⟩ | ⟨l, k, r, h1, -, -, -, h⟩
  · rw [h]; exact ⟨rfl, rfl, fun k hk _ => hk⟩
  · rw [h]
    refine ⟨rfl, rfl, fun y hy ha => ?_⟩
    simp only [List.mem_append, List.mem_cons] at hy
    rw [h1]
    rcases hy with hy | rfl | hy
    · simp [hy]
    · simp [Job.available, Job.markExecuting] at ha
    · simp [hy]

theorem op_subs (now : Time) (o : Op) (m : Mem) :
    SubsGrow m (m.step now o).2 ∧
    ((m.paused = true → (match o with | .notifyAll => false | _ => true) = true → Quiet m (m.step now o).2)) ∧
    (m.paused = false → ∀ k ∈ (m.step now o).2.jobs, k.job.available →
      k ∈ m.jobs ∨ Told m (m.step now o).2 k.job) := by
  have wake : ∀ id f, SubsGrow m (m.onJob id f true).2 ∧ (m.paused = true → true = true → Quiet m (m.onJob id f true).2) ∧
      (m.paused = false → ∀ k ∈ (m.onJob id f true).2.jobs, k.job.available →
      k ∈ m.jobs ∨ Told m (m.onJob id f true).2 k.job) := by
    intro id f
    obtain ⟨a, b, c⟩ := onJob_subs id f true m
    refine ⟨a, fun h _ => b h, fun hp k hk _ => ?_⟩
    rcases c k hk with h | ⟨-, h⟩
    · exact .inl h
    · exact .inr (h rfl hp)
  have stop : ∀ id f, (∀ j : Job, ¬ (f j).available) →
      SubsGrow m (m.onJob id f false).2 ∧ (m.paused = true → true = true → Quiet m (m.onJob id f false).2) ∧
      (m.paused = false → ∀ k ∈ (m.onJob id f false).2.jobs, k.job.available →
      k ∈ m.jobs ∨ Told m (m.onJob id f false).2 k.job) := by
    intro id f hf
    obtain ⟨a, b, c⟩ := onJob_subs id f false m
    refine ⟨a, fun h _ => b h, fun hp k hk ha => ?_⟩
    rcases c k hk with h | ⟨⟨k₀, -, h⟩, -⟩
    · exact .inl h
    · rw [h] at ha; exact absurd ha (hf _)
  cases o with
  | complete id => exact stop _ _ fun j => by simp [Job.available, Job.markComplete]
  | discarded id e => exact stop _ _ fun j => by simp [Job.available, Job.markDiscarded]
  | cancelled id e => exact stop _ _ fun j => by simp [Job.available, Job.markCancelled]
  | retryable id t e => exact wake _ _
  | snoozed id t => exact wake _ _
  | rerun id => exact wake _ _
  | update job => exact wake _ _
  | prune spec =>
    refine ⟨.same (by simp [Mem.step]) (by simp [Mem.step]), fun _ _ => .same (by simp [Mem.step]), fun _ k hk _ => .inl ?_⟩
    exact (prune_sublist now spec m).subset hk
  | query q => exact ⟨.same rfl rfl, fun _ _ => .same rfl, fun _ k hk _ => .inl hk⟩
  | load x =>
    obtain ⟨a, b, c⟩ := load_subs now x m
    exact ⟨.same a b, fun _ _ => .same a, fun _ k hk ha => .inl (c k hk ha)⟩
  | subscribe x =>
    have : ∀ (n : Nat) (sb : Sub), m.subs[n]? = some sb → (m.subscribe x).subs[n]? = some sb := by
      intro n sb h
      have hn := (List.getElem?_eq_some_iff.mp h).1
      simp only [Mem.subscribe]
      rw [List.getElem?_append_left hn, h]
    exact ⟨⟨rfl, fun n sb h => ⟨[], by rw [List.append_nil]; exact this n sb h⟩⟩, fun _ _ n sb h => this n sb h, fun _ k hk _ => .inl hk⟩
  | notifyAll =>
    exact ⟨notifyAll_grow now m, fun _ h => by simp at h, fun _ k hk _ => .inl hk⟩

/-- One step of another client, as seen by the streams. -/
theorem client_subs (now : Time) (c : Conc) (a : Act) :
    SubsGrow c.mem (c.step now a).2.mem ∧
    (c.mem.paused = true → (StAct.client a).isNotifyAll = false → Quiet c.mem (c.step now a).2.mem) ∧
    (c.mem.paused = false → ∀ k ∈ (c.step now a).2.mem.jobs, k.job.available →
      (k ∈ c.mem.jobs ∧ ¬ c.enqueuing k.job) ∨ (c.step now a).2.enqueuing k.job ∨
        Told c.mem (c.step now a).2.mem k.job) := by
  have keep : ∀ c' : Conc, c'.mem.jobs = c.mem.jobs → c'.mem.subs = c.mem.subs → c'.mem.paused = c.mem.paused →
      (∀ p ∈ c.calls, (∃ id e, p = .pushed id e) → p ∈ c'.calls) →
      SubsGrow c.mem c'.mem ∧
      (c.mem.paused = true → (StAct.client a).isNotifyAll = false → Quiet c.mem c'.mem) ∧
      (c.mem.paused = false → ∀ k ∈ c'.mem.jobs, k.job.available →
        (k ∈ c.mem.jobs ∧ ¬ c.enqueuing k.job) ∨ c'.enqueuing k.job ∨ Told c.mem c'.mem k.job) := by
    intro c' h1 h2 h3 h4
    refine ⟨.same h2 h3, fun _ _ => .same h2, fun _ k hk _ => ?_⟩
    by_cases he : c.enqueuing k.job
    · obtain ⟨e, h, hx⟩ := he
      exact .inr (.inl ⟨e, h4 _ h ⟨_, _, rfl⟩, hx⟩)
    · exact .inl ⟨h1 ▸ hk, he⟩
  cases a with
  | start e => exact keep _ rfl rfl rfl fun p hp _ => by simp [Conc.step, hp]
  | op o =>
    obtain ⟨h1, h2, h3⟩ := op_subs now o c.mem
    refine ⟨h1, fun hp hn => h2 hp ?_, fun hp k hk ha => ?_⟩
    · cases o <;> simp_all [StAct.isNotifyAll]
    · by_cases he : c.enqueuing k.job
      · exact .inr (.inl he)
      · rcases h3 hp k hk ha with h | h
        · exact .inl ⟨h, he⟩
        · exact .inr (.inr h)
  | advance i =>
    simp only [Conc.step]
    cases hp : c.calls[i]? with
    | none => exact keep _ rfl rfl rfl fun p hp _ => hp
    | some p =>
      simp only
      have other : ∀ p', (¬ ∃ id e, p = .pushed id e) →
          ∀ q ∈ c.calls, (∃ id e, q = .pushed id e) → q ∈ c.calls.set i p' := by
        intro p' hne q hq hqp
        obtain ⟨n, hn⟩ := List.mem_iff_getElem?.mp hq
        refine List.mem_iff_getElem?.mpr ⟨n, ?_⟩
        rw [List.getElem?_set_ne]
        · exact hn
        · rintro rfl
          rw [hp] at hn
          simp only [Option.some.injEq] at hn
          subst hn
          exact hne hqp
      have keepSet : ∀ (m' : Mem) (p' : Pending), (¬ ∃ id e, p = .pushed id e) →
          m'.jobs = c.mem.jobs → m'.subs = c.mem.subs → m'.paused = c.mem.paused → _ :=
        fun m' p' hne h1 h2 h3 => keep ⟨m', c.calls.set i p'⟩ h1 h2 h3 (other p' hne)
      cases p with
      | start e =>
        simp only [Mem.advance]
        cases hc : e.criteria with
        | none => exact keepSet _ _ (by simp) rfl rfl rfl
        | some u =>
          simp only
          split <;> exact keepSet _ _ (by simp) rfl rfl rfl
      | noMatch e => exact keepSet _ _ (by simp) rfl rfl rfl
      | allocated id e =>
        simp only [Mem.advance]
        refine ⟨.same rfl rfl, fun _ _ => .same rfl, fun _ k hk ha => ?_⟩
        simp only [List.mem_append, List.mem_singleton] at hk
        rcases hk with hk | rfl
        · by_cases he : c.enqueuing k.job
          · obtain ⟨e', h, hx⟩ := he
            exact .inr (.inl ⟨e', other _ (by simp) _ h ⟨_, _, rfl⟩, hx⟩)
          · exact .inl ⟨hk, he⟩
        · refine .inr (.inl ⟨e, ?_, rfl⟩)
          have hi := (List.getElem?_eq_some_iff.mp hp).1
          exact List.mem_iff_getElem?.mpr ⟨i, by simp [hi]⟩
      | pushed id e =>
        simp only [Mem.advance]
        refine ⟨notify_grow _ _ _, fun hp _ => notify_quiet hp, fun hup k hk ha => ?_⟩
        simp only [notify_jobs] at hk
        by_cases hx : k.job.executor = e.executor
        · exact .inr (.inr (notify_told hup hx))
        · by_cases he : c.enqueuing k.job
          · obtain ⟨e', h, hx'⟩ := he
            refine .inr (.inl ⟨e', ?_, hx'⟩)
            obtain ⟨n, hn⟩ := List.mem_iff_getElem?.mp h
            refine List.mem_iff_getElem?.mpr ⟨n, ?_⟩
            rw [List.getElem?_set_ne]
            · exact hn
            · rintro rfl
              rw [hp] at hn
              simp only [Option.some.injEq, Pending.pushed.injEq] at hn
              rw [hn.2] at hx
              exact hx hx'.symm
          · exact .inl ⟨hk, he⟩
      | matched job =>
        have hm := advance_matched_mem now c.mem job
        show SubsGrow c.mem (c.mem.advance now (.matched job)).2.2 ∧
          (c.mem.paused = true → _ → Quiet c.mem (c.mem.advance now (.matched job)).2.2) ∧
          (c.mem.paused = false → ∀ k ∈ (c.mem.advance now (.matched job)).2.2.jobs, _ → _ ∨ _ ∨
            Told c.mem (c.mem.advance now (.matched job)).2.2 k.job)
        rw [hm]
        obtain ⟨h1, h2, h3⟩ := onJob_subs job.id (fun _ => job) true c.mem
        refine ⟨h1, fun hp _ => h2 hp, fun hup k hk ha => ?_⟩
        rcases h3 k hk with h | ⟨-, h⟩
        · by_cases he : c.enqueuing k.job
          · obtain ⟨e', h, hx⟩ := he
            exact .inr (.inl ⟨e', other _ (by simp) _ h ⟨_, _, rfl⟩, hx⟩)
          · exact .inl ⟨h, he⟩
        · exact .inr (.inr (h rfl hup))
      | done r => exact keepSet _ _ (by simp) rfl rfl rfl

end Rexecutor
