import Verif.Props.Outcome
import Verif.Spec.Store

/-! Following one job that only runners touch. -/

namespace Rexecutor

/-- all executions in flight of job `id` -/
def Sys.flying (s : Sys) (id : Int) : List Flight :=
  (s.runners.flatMap (·.flights)).filter fun f => f.task.id == id

/-- the call is one the runner makes for this execution -/
def Reportable (t : Task) (o : Op) : Prop := ∃ (d : Runner) (now : Time) (j : Joined), d.report now t j = some o

theorem reportable_cases {t : Task} {o : Op} (h : Reportable t o) :
    o = .complete t.id ∨ (∃ e, o = .cancelled t.id e) ∨ (∃ x, o = .snoozed t.id x) ∨
    (t.isFinal = true ∧ ∃ e, o = .discarded t.id e) ∨
    (t.isFinal = false ∧ ∃ x e, o = .retryable t.id x e) := by
  obtain ⟨d, now, j, h⟩ := h
  have herr : ∀ e, t.handleError now e = some o →
      (t.isFinal = true ∧ ∃ e, o = .discarded t.id e) ∨ (t.isFinal = false ∧ ∃ x e, o = .retryable t.id x e) := by
    intro e he
    unfold Task.handleError at he
    split at he
    · rename_i hf; simp only [Option.some.injEq] at he; exact Or.inl ⟨hf, e, he.symm⟩
    · rename_i hf
      rw [Option.map_eq_some_iff] at he
      obtain ⟨x, -, hx⟩ := he
      exact Or.inr ⟨by simpa using hf, x, e, hx.symm⟩
  cases j with
  | elapsed l => exact Or.inr (Or.inr (Or.inr (herr _ h)))
  | joinError p m => exact Or.inr (Or.inr (Or.inr (herr _ h)))
  | result r =>
    cases r with
    | done => simp only [Runner.report, Option.some.injEq] at h; exact Or.inl h.symm
    | cancel reason => simp only [Runner.report, Option.some.injEq] at h; exact Or.inr (Or.inl ⟨_, h.symm⟩)
    | snooze d =>
      simp only [Runner.report, Option.map_eq_some_iff] at h
      obtain ⟨x, -, hx⟩ := h
      exact Or.inr (Or.inr (Or.inl ⟨x, hx.symm⟩))
    | error ty msg => exact Or.inr (Or.inr (Or.inr (herr _ h)))

theorem reportable_touches {t : Task} {o : Op} {res : Res} {id : Int} (h : Reportable t o)
    (ht : (Ev.op o res).touches id = true) : id = t.id := by
  rcases reportable_cases h with rfl | ⟨e, rfl⟩ | ⟨x, rfl⟩ | ⟨-, e, rfl⟩ | ⟨-, x, e, rfl⟩ <;>
  · cases res <;>
      simp [Ev.touches, Ev.handsOut, Ev.finishes, Ev.putsBack, Ev.retries, Ev.snoozes, Ev.reruns,
        Ev.updates, Ev.conflicts] at ht
    exact ht.symm

theorem flying_set {s : Sys} {r : Nat} {rs : RunnerState} (id : Int) (h : s.runners[r]? = some rs) :
    ∃ A B, s.flying id = A ++ rs.flights.filter (fun f => f.task.id == id) ++ B ∧
      ∀ c rs', Sys.flying (Sys.mk (c) (s.runners.set r rs')) id =
        A ++ rs'.flights.filter (fun f => f.task.id == id) ++ B := by
  obtain ⟨a, b, h1, h2⟩ := set_split h
  refine ⟨(a.flatMap (·.flights)).filter (fun f => f.task.id == id),
    (b.flatMap (·.flights)).filter (fun f => f.task.id == id), ?_, ?_⟩
  · unfold Sys.flying; rw [h1]; simp [List.flatMap_append, List.filter_append]
  · intro c rs'; unfold Sys.flying; rw [h2]; simp [List.flatMap_append, List.filter_append]

theorem flying_stop (s : Sys) (id : Int) :
    Sys.flying { s with runners := s.runners.map fun rs => { rs with polling := false } } id = s.flying id := by
  unfold Sys.flying
  simp [List.flatMap_map]

theorem mem_flying {s : Sys} {r : Nat} {rs : RunnerState} {f : Flight} {id : Int}
    (h : s.runners[r]? = some rs) (hf : f ∈ rs.flights) (hid : f.task.id = id) : f ∈ s.flying id := by
  unfold Sys.flying
  rw [List.mem_filter, List.mem_flatMap]
  exact ⟨⟨rs, List.mem_of_getElem? h, hf⟩, by simpa using hid⟩

theorem filter_set_other {l : List Flight} {i : Nat} {f g : Flight} (h : l[i]? = some f)
    {p : Flight → Bool} (hf : p f = false) (hg : p g = false) : (l.set i g).filter p = l.filter p := by
  obtain ⟨a, b, h1, h2⟩ := set_split h
  rw [h2, h1]; simp [hf, hg]

theorem filter_set_same {l : List Flight} {i : Nat} {f g : Flight} (h : l[i]? = some f)
    {p : Flight → Bool} (hf : p f = true) (hg : p g = true) :
    ∃ a b, l.filter p = a ++ f :: b ∧ (l.set i g).filter p = a ++ g :: b := by
  obtain ⟨a, b, h1, h2⟩ := set_split h
  refine ⟨a.filter p, b.filter p, ?_, ?_⟩
  · rw [h1]; simp [hf]
  · rw [h2]; simp [hg]

theorem erase_split {l : List Flight} {i : Nat} {f : Flight} (h : l[i]? = some f) :
    ∃ a b, l = a ++ f :: b ∧ l.eraseIdx i = a ++ b := by
  obtain ⟨hi, rfl⟩ := List.getElem?_eq_some_iff.mp h
  exact ⟨l.take i, l.drop (i + 1), by simp, List.eraseIdx_eq_take_drop_succ ..⟩

theorem append_singleton {a b : List Flight} {f g : Flight} (h : a ++ f :: b = [g]) : a = [] ∧ b = [] ∧ f = g := by
  cases a with
  | nil => simp at h; exact ⟨rfl, h.2, h.1⟩
  | cons x a => simp at h

theorem sublist_singleton {l : List Flight} {f : Flight} (h : l.Sublist [f]) : l = [] ∨ l = [f] := by
  cases h with
  | cons _ h => exact Or.inl (List.sublist_nil.mp h)
  | cons_cons _ h => exact Or.inr (by rw [List.sublist_nil.mp h])

/-- every call about to be made is one the runner makes for that execution -/
def AllReportable (s : Sys) : Prop :=
  ∀ r f o, f ∈ s.flightsOf r → f.phase = .reporting o → Reportable f.task o

theorem allReportable_step {defs : List Runner} {now : Time} {s s' : Sys} {a : SAct} {ev : SEv}
    (H : AllReportable s) (hs : SStep defs now s a ev s') : AllReportable s' := by
  intro r₀ f o₀ hf ho₀
  cases hs with
  | client a => exact H r₀ f o₀ hf ho₀
  | idle => exact H r₀ f o₀ hf ho₀
  | empty => exact H r₀ f o₀ hf ho₀
  | undecodable => exact H r₀ f o₀ hf ho₀
  | started r d rs j t hd hr hp hl hev hst =>
    rw [flightsOf_set hr] at hf
    split at hf
    · rename_i hrr; subst hrr
      rcases List.mem_append.mp hf with hf | hf
      · exact H r₀ f o₀ (by rw [flightsOf_some hr]; exact hf) ho₀
      · simp only [List.mem_singleton] at hf; subst hf; simp at ho₀
    · exact H r₀ f o₀ hf ho₀
  | panicked r d rs j hd hr hp hl hev hst =>
    rw [flightsOf_set hr] at hf
    split at hf
    · simp [RunnerState.crash] at hf
    · exact H r₀ f o₀ hf ho₀
  | overflowed r i b d rs t j hd hr hfl hj ho =>
    rw [flightsOf_set hr] at hf
    split at hf
    · simp [RunnerState.crash] at hf
    · exact H r₀ f o₀ hf ho₀
  | ended r i b d rs t j o hd hr hfl hj ho =>
    rw [flightsOf_set hr] at hf
    split at hf
    · rename_i hrr; subst hrr
      rcases List.mem_or_eq_of_mem_set hf with hf | hf
      · exact H r₀ f o₀ (by rw [flightsOf_some hr]; exact hf) ho₀
      · subst hf
        simp only [Phase.reporting.injEq] at ho₀
        subst ho₀
        exact ⟨d, now, j, ho⟩
    · exact H r₀ f o₀ hf ho₀
  | reported r i rs t o hr hfl =>
    rw [flightsOf_set hr] at hf
    split at hf
    · rename_i hrr; subst hrr
      exact H r₀ f o₀ (by rw [flightsOf_some hr]; exact List.mem_of_mem_eraseIdx hf) ho₀
    · exact H r₀ f o₀ hf ho₀
  | shutdown => rw [flightsOf_stop] at hf; exact H r₀ f o₀ hf ho₀

theorem ClientsLeave.client {id : Int} {h : List TSEv} (H : ClientsLeave id h) {e : TSEv} (he : e ∈ h) {ev : Ev}
    (hev : e.ev = .client ev) : ev.touches id = false := by
  have := H e he
  rw [hev] at this
  exact this

/-- at most one execution of the job is in flight; while one is, the job is stored as being
executed and `Q` holds of what the runner knows and the job -/
structure TrackBy (Q : Bool → Job → Prop) (id : Int) (h : List TSEv) (s : Sys) : Prop where
  one : s.flying id = [] ∨ ∃ f, s.flying id = [f] ∧
    ∀ k ∈ s.conc.mem.jobs, k.job.id = id →
      k.job.status = .executing ∧ Q f.task.isFinal k.job
  fresh : id ∉ insertedIds (backHistory h) → s.flying id = []

/-- the executions in flight of a job only runners touch -/
abbrev Track : Int → List TSEv → Sys → Prop := TrackBy fun f j => f = decide (j.attempt = j.maxAttempts)

/-- a handed out job was waiting, so nothing of it was in flight -/
theorem TrackBy.idle {Q : Bool → Job → Prop} {id : Int} {h : List TSEv} {s : Sys} (T : TrackBy Q id h s) {now : Time} {x : String} {j : Job}
    (hev : (s.conc.step now (.op (.load x))).1 = .op (.load x) (.job (some j))) (hj : j.id = id) :
    s.flying id = [] := by
  rcases T.one with h1 | ⟨f, h1, h2⟩
  · exact h1
  · exfalso
    obtain ⟨-, l, k, r, g1, g2, -, -, g5, -⟩ := handout_cases hev
    have := (h2 k (by rw [g1]; simp) (by rw [← hj, g5]; rfl)).1
    rw [readyFor_iff] at g2
    rcases g2.2.2 with hw | hw <;> rw [this] at hw <;> simp at hw

/-- the stored job `id` after a step of the backend that does not touch it -/
theorem untouched_job {h : List TEv} {c : Conc} (H : HistOk h c) {now : Time} {b : Act} {id : Int}
    (ht : (c.step now b).1.touches id = false) {k' : KeyedJob} (hk' : k' ∈ (c.step now b).2.mem.jobs)
    (hid : k'.job.id = id) :
    (∃ e, (c.step now b).1 = .inserted id e ∧ k' = e.intoJob now id ∧ id ∉ insertedIds h) ∨
    ∃ k ∈ c.mem.jobs, k.job = k'.job := by
  cases step_job H.ids_nodup hk' with
  | new e hev hk =>
    rw [hid] at hev hk
    exact Or.inl ⟨e, hev, hk, fun hin => absurd (inserted_waiting hev) (H.not_waiting hin)⟩
  | old k hk _ hj =>
    refine Or.inr ⟨k, hk, ?_⟩
    have hkid : k.job.id = id := by
      have := applyEv_id now (c.step now b).1 k.job
      rw [← hj] at this; rw [← this]; exact hid
    rw [hj, applyEv_of_not_touches (by rw [hkid]; exact ht)]

theorem load_not_touches {x : String} {j : Job} {id : Int} (h : j.id ≠ id) :
    (Ev.op (.load x) (.job (some j))).touches id = false := by
  simp [Ev.touches, Ev.handsOut, Ev.finishes, Ev.putsBack, Ev.retries, Ev.snoozes, Ev.reruns,
    Ev.updates, Ev.conflicts, h]

theorem load_none_not_touches {x : String} {id : Int} :
    (Ev.op (.load x) (.job none)).touches id = false := by
  simp [Ev.touches, Ev.handsOut, Ev.finishes, Ev.putsBack, Ev.retries, Ev.snoozes, Ev.reruns,
    Ev.updates, Ev.conflicts]

theorem inserted_mono {h : List TSEv} {e : TSEv} {id : Int}
    (hn : id ∉ insertedIds (backHistory (h ++ [e]))) : id ∉ insertedIds (backHistory h) := by
  intro hin
  refine hn ?_
  rw [backHistory_append, insertedIds_append]
  exact List.mem_append_left _ hin

theorem TrackBy.step {Q : Bool → Job → Prop} {defs : List Runner} {id : Int} {h : List TSEv} {s s' : Sys} {now : Time} {a : SAct}
    {ev : SEv} (T : TrackBy Q id h s) (H : HistOk (backHistory h) s.conc) (R : AllReportable s)
    (hq : ∀ e, ev = .client e → e.touches id = false)
    (hQ : ∀ r x j st, ev = .pulled r (.op (.load x) (.job (some j))) st → j.id = id →
      Q (decide (j.attempt = j.maxAttempts)) j)
    (hs : SStep defs now s a ev s') : TrackBy Q id (h ++ [{ now := now, ev := ev }]) s' := by
  -- steps of the backend that do not touch the job, without effect on its executions
  have quiet : ∀ (b : Act) (s₁ : Sys), (s.conc.step now b).1.touches id = false →
      s₁.conc = (s.conc.step now b).2 → (s₁.flying id).Sublist (s.flying id) →
      TrackBy Q id (h ++ [{ now := now, ev := ev }]) s₁ := by
    intro b s₁ ht hc hf
    have hfr : id ∉ insertedIds (backHistory h) → s₁.flying id = [] := by
      intro hn
      have := T.fresh hn
      rw [this] at hf
      exact List.sublist_nil.mp hf
    refine ⟨?_, fun hn => hfr (inserted_mono hn)⟩
    rcases T.one with h1 | ⟨f, h1, h2⟩
    · left; rw [h1] at hf; exact List.sublist_nil.mp hf
    · rw [h1] at hf
      rcases sublist_singleton hf with h3 | h3
      · exact Or.inl h3
      · refine Or.inr ⟨f, h3, ?_⟩
        intro k' hk' hid
        rw [hc] at hk'
        rcases untouched_job H ht hk' hid with ⟨e, -, -, hn⟩ | ⟨k, hk, hj⟩
        · rw [hfr hn] at h3; simp at h3
        · rw [← hj]; exact h2 k hk (by rw [hj]; exact hid)
  cases hs with
  | client a => exact quiet a _ (hq _ rfl) rfl (List.Sublist.refl _)
  | idle => exact ⟨T.one, fun hn => T.fresh (inserted_mono hn)⟩
  | shutdown =>
    refine ⟨?_, fun hn => ?_⟩
    · simp only [flying_stop]; exact T.one
    · rw [flying_stop]; exact T.fresh (inserted_mono hn)
  | empty r d rs hd hr hp hl hev =>
    exact quiet _ _ (by rw [hev]; exact load_none_not_touches) rfl (List.Sublist.refl _)
  | undecodable r d rs j hd hr hp hl hev hst =>
    by_cases hj : j.id = id
    · have h1 := T.idle hev hj
      exact ⟨Or.inl h1, fun _ => h1⟩
    · exact quiet _ _ (by rw [hev]; exact load_not_touches hj) rfl (List.Sublist.refl _)
  | panicked r d rs j hd hr hp hl hev hst =>
    obtain ⟨A, B, f1, f2⟩ := flying_set id hr
    have hsub : (Sys.flying (Sys.mk ((s.conc.step now (.op (.load d.name))).2) (s.runners.set r rs.crash)) id).Sublist (s.flying id) := by
      rw [f2, f1]
      simp only [RunnerState.crash, List.filter_nil]
      exact (List.Sublist.append (List.Sublist.append (List.Sublist.refl _) (List.nil_sublist _))
        (List.Sublist.refl _))
    by_cases hj : j.id = id
    · have h1 := T.idle hev hj
      rw [h1] at hsub
      have h2 := List.sublist_nil.mp hsub
      exact ⟨Or.inl h2, fun _ => h2⟩
    · exact quiet _ _ (by rw [hev]; exact load_not_touches hj) rfl hsub
  | overflowed r i b d rs t j hd hr hfl hj ho =>
    obtain ⟨A, B, f1, f2⟩ := flying_set id hr
    have hsub : (Sys.flying (Sys.mk (s.conc) (s.runners.set r rs.crash)) id).Sublist (s.flying id) := by
      rw [f2, f1]
      simp only [RunnerState.crash, List.filter_nil]
      exact (List.Sublist.append (List.Sublist.append (List.Sublist.refl _) (List.nil_sublist _))
        (List.Sublist.refl _))
    have hfr : id ∉ insertedIds (backHistory h) → Sys.flying (Sys.mk (s.conc) (s.runners.set r rs.crash)) id = [] := by
      intro hn
      rw [T.fresh hn] at hsub
      exact List.sublist_nil.mp hsub
    refine ⟨?_, fun hn => hfr (inserted_mono hn)⟩
    rcases T.one with h1 | ⟨f, h1, h2⟩
    · left; rw [h1] at hsub; exact List.sublist_nil.mp hsub
    · rw [h1] at hsub
      rcases sublist_singleton hsub with h3 | h3
      · exact Or.inl h3
      · exact Or.inr ⟨f, h3, h2⟩
  | started r d rs j t hd hr hp hl hev hst =>
    obtain ⟨A, B, f1, f2⟩ := flying_set id hr
    obtain ⟨htid, hfin⟩ := start_running hst
    by_cases hj : j.id = id
    · have h1 := T.idle hev hj
      rw [f1] at h1
      simp only [List.append_eq_nil_iff] at h1
      obtain ⟨⟨hA, hF⟩, hB⟩ := h1
      have hfly : Sys.flying (Sys.mk ((s.conc.step now (.op (.load d.name))).2) (s.runners.set r (rs.withFlights (rs.flights ++ [⟨t, .running⟩])))) id
          = [⟨t, .running⟩] := by
        rw [f2, hA, hB]
        simp only [List.filter_append, hF, List.nil_append, List.append_nil]
        simp [htid, hj]
      have hmem : id ∈ insertedIds (backHistory h) := by
        obtain ⟨-, l, k, r, g1, -, -, -, g5, -⟩ := handout_cases hev
        have := H.mem_inserted (k := k) (by rw [g1]; simp)
        rw [g5] at hj
        simp only [Job.markExecuting] at hj
        rw [hj] at this; exact this
      refine ⟨Or.inr ⟨_, hfly, ?_⟩, fun hn => absurd hmem (inserted_mono hn)⟩
      intro k' hk' hid
      obtain ⟨-, l, k, r', g1, g2, -, -, g5, g6⟩ := handout_cases hev
      have hn := H.ids_nodup
      unfold Mem.ids at hn
      rw [g1] at hn
      simp only at hk'
      rw [g6] at hk'
      rcases mem_replaceAt hn hk' with ⟨-, hne⟩ | rfl
      · exfalso; apply hne; rw [hid, ← hj, g5]; rfl
      · refine ⟨rfl, ?_⟩
        rw [hfin]
        simp only [← g5]
        exact hQ _ _ j _ rfl hj
    · refine quiet _ _ (by rw [hev]; exact load_not_touches hj) rfl ?_
      rw [f2, f1]
      simp only [List.filter_append]
      have : ([⟨t, .running⟩] : List Flight).filter (fun f => f.task.id == id) = [] := by
        simp [htid, hj]
      rw [this]; simp
  | ended r i b d rs t j o hd hr hfl hjn ho =>
    obtain ⟨A, B, f1, f2⟩ := flying_set id hr
    by_cases hid : t.id = id
    · obtain ⟨a, b', e1, e2⟩ := filter_set_same (f := ⟨t, .running⟩) (g := ⟨t, .reporting o⟩) hfl
        (p := fun f => f.task.id == id) (by simp [hid]) (by simp [hid])
      have hin : (⟨t, .running⟩ : Flight) ∈ s.flying id := mem_flying hr (List.mem_of_getElem? hfl) hid
      rcases T.one with h1 | ⟨f, h1, h2⟩
      · rw [h1] at hin; simp at hin
      · have h1' := h1
        rw [f1, e1] at h1'
        have hA : (A ++ a) ++ (⟨t, .running⟩ : Flight) :: (b' ++ B) = [f] := by
          rw [← h1']; simp
        obtain ⟨q1, q2, q3⟩ := append_singleton hA
        subst q3
        have hfly : Sys.flying (Sys.mk (s.conc) (s.runners.set r (rs.withFlights (rs.flights.set i ⟨t, .reporting o⟩)))) id
            = [⟨t, .reporting o⟩] := by
          rw [f2]
          simp only [e2]
          rw [show A ++ (a ++ (⟨t, .reporting o⟩ : Flight) :: b') ++ B = (A ++ a) ++ ⟨t, .reporting o⟩ :: (b' ++ B) by simp,
            q1, q2]; rfl
        refine ⟨Or.inr ⟨_, hfly, h2⟩, fun hn => ?_⟩
        have := T.fresh (inserted_mono hn)
        rw [h1] at this; simp at this
    · have hfly : Sys.flying (Sys.mk (s.conc) (s.runners.set r (rs.withFlights (rs.flights.set i ⟨t, .reporting o⟩)))) id
          = s.flying id := by
        rw [f2, f1]
        simp only
        rw [filter_set_other hfl (by simp [hid]) (by simp [hid])]
      refine ⟨?_, fun hn => ?_⟩
      · rw [hfly]; exact T.one
      · rw [hfly]; exact T.fresh (inserted_mono hn)
  | reported r i rs t o hr hfl =>
    obtain ⟨A, B, f1, f2⟩ := flying_set id hr
    obtain ⟨a, b, e1, e2⟩ := erase_split hfl
    have hrep : Reportable t o := R r ⟨t, .reporting o⟩ o
      (by rw [flightsOf_some hr]; exact List.mem_of_getElem? hfl) rfl
    by_cases hid : t.id = id
    · have hin : (⟨t, .reporting o⟩ : Flight) ∈ s.flying id := mem_flying hr (List.mem_of_getElem? hfl) hid
      rcases T.one with h1 | ⟨f, h1, h2⟩
      · rw [h1] at hin; simp at hin
      · rw [f1, e1] at h1
        have hA : (A ++ a.filter (fun f => f.task.id == id)) ++ (⟨t, .reporting o⟩ : Flight) ::
            (b.filter (fun f => f.task.id == id) ++ B) = [f] := by
          rw [← h1]; simp [List.filter_append, hid]
        obtain ⟨q1, q2, -⟩ := append_singleton hA
        have hfly : Sys.flying (Sys.mk ((s.conc.step now (.op o)).2) (s.runners.set r (rs.withFlights (rs.flights.eraseIdx i)))) id = [] := by
          rw [f2]
          simp only [e2, List.filter_append]
          rw [← List.append_assoc, q1, List.nil_append]; exact q2
        exact ⟨Or.inl hfly, fun _ => hfly⟩
    · refine quiet (.op o) _ ?_ rfl ?_
      · cases ht : (s.conc.step now (.op o)).1.touches id with
        | false => rfl
        | true => exact absurd (reportable_touches hrep ht).symm hid
      · rw [f2, f1]
        simp only [e2]
        rw [e1]
        have : ([⟨t, .reporting o⟩] : List Flight).filter (fun f => f.task.id == id) = [] := by simp [hid]
        simp [List.filter_append, hid]

/-- the tracking invariant holds in every history -/
theorem track_run (defs : List Runner) (p : Bool) (id : Int) (as : List TSAct)
    (hb : idsTaken (backHistory ((Sys.init defs p).trace defs as)) ≤ 4294967296)
    (hq : ClientsLeave id ((Sys.init defs p).trace defs as)) :
    Track id ((Sys.init defs p).trace defs as) ((Sys.init defs p).run defs as) ∧
    AllReportable ((Sys.init defs p).run defs as) := by
  revert hb hq
  refine snocInduction (P := fun as => idsTaken (backHistory ((Sys.init defs p).trace defs as)) ≤ 4294967296 →
    ClientsLeave id ((Sys.init defs p).trace defs as) →
    Track id ((Sys.init defs p).trace defs as) ((Sys.init defs p).run defs as) ∧
    AllReportable ((Sys.init defs p).run defs as)) ?_ ?_ as
  · intro _ _
    have : (Sys.init defs p).flying id = [] := by
      simp [Sys.flying, Sys.init]
    exact ⟨⟨Or.inl this, fun _ => this⟩, fun r f o hf => by rw [Sys.run, flightsOf_init] at hf; simp at hf⟩
  · intro as a ih hb hq
    rw [Sys.trace_append] at hb hq ⊢
    rw [Sys.run_append]
    rw [backHistory_append] at hb
    have hb1 := idsTaken_append_le hb
    obtain ⟨T, R⟩ := ih hb1 (fun e he => hq e (List.mem_append_left _ he))
    have hs := step_sstep defs a.now ((Sys.init defs p).run defs as) a.act
    refine ⟨T.step (histOk_sys defs p as hb1) R ?_ (fun _ _ _ _ _ _ => rfl) hs, allReportable_step R hs⟩
    intro e he
    exact hq.client (e := ⟨a.now, _⟩) (List.mem_append_right _ (by simp [Sys.trace])) he

/-- What a step does to the executions of one job and to the store, seen from that job. -/
inductive FlyStep (id : Int) (now : Time) (s : Sys) : SEv → Sys → Prop where
  | away (ev : SEv) (s' : Sys) (hsub : (s'.flying id).Sublist (s.flying id))
      (hback : ev.back = none) (hconc : s'.conc = s.conc) (hend : ∀ r t j c, ev = .ended r t j c → t.id ≠ id) :
      FlyStep id now s ev s'
  | other (ev : SEv) (s' : Sys) (b : Act) (hsub : (s'.flying id).Sublist (s.flying id))
      (hback : ev.back = some (s.conc.step now b).1) (hconc : s'.conc = (s.conc.step now b).2)
      (ht : (s.conc.step now b).1.touches id = false) : FlyStep id now s ev s'
  | taken (r : Nat) (x : String) (j : Job) (st : Started) (s' : Sys)
      (hev : (s.conc.step now (.op (.load x))).1 = .op (.load x) (.job (some j))) (hid : j.id = id)
      (hfly : s.flying id = []) (hfly' : s'.flying id = [] ∨ ∃ t, s'.flying id = [⟨t, .running⟩])
      (hconc : s'.conc = (s.conc.step now (.op (.load x))).2) :
      FlyStep id now s (.pulled r (.op (.load x) (.job (some j))) (some st)) s'
  | ended (r : Nat) (t : Task) (j : Joined) (d : Runner) (o : Op) (s' : Sys) (hid : t.id = id)
      (ho : d.report now t j = some o)
      (hfly : s.flying id = [⟨t, .running⟩]) (hfly' : s'.flying id = [⟨t, .reporting o⟩])
      (hconc : s'.conc = s.conc) : FlyStep id now s (.ended r t j (some o)) s'
  | overflowed (r : Nat) (t : Task) (j : Joined) (s' : Sys) (hid : t.id = id)
      (hfly : s.flying id = [⟨t, .running⟩]) (hfly' : s'.flying id = [])
      (hconc : s'.conc = s.conc) : FlyStep id now s (.ended r t j none) s'
  | reported (r : Nat) (t : Task) (o : Op) (s' : Sys) (hid : t.id = id) (hrep : Reportable t o)
      (hfly : s.flying id = [⟨t, .reporting o⟩]) (hfly' : s'.flying id = [])
      (hconc : s'.conc = (s.conc.step now (.op o)).2) :
      FlyStep id now s (.reported r t (s.conc.step now (.op o)).1) s'

theorem fly_crash {s : Sys} {r : Nat} {rs : RunnerState} (id : Int) (c : Conc) (h : s.runners[r]? = some rs) :
    (Sys.flying (Sys.mk c (s.runners.set r rs.crash)) id).Sublist (s.flying id) := by
  obtain ⟨A, B, f1, f2⟩ := flying_set id h
  rw [f2, f1]
  simp only [RunnerState.crash, List.filter_nil]
  exact (List.Sublist.append (List.Sublist.append (List.Sublist.refl _) (List.nil_sublist _))
    (List.Sublist.refl _))

theorem fly_step {Q : Bool → Job → Prop} {defs : List Runner} {id : Int} {h : List TSEv} {s s' : Sys} {now : Time} {a : SAct}
    {ev : SEv} (T : TrackBy Q id h s) (R : AllReportable s)
    (hq : ∀ e, ev = .client e → e.touches id = false)
    (hs : SStep defs now s a ev s') : FlyStep id now s ev s' := by
  have single : ∀ f, f ∈ s.flying id → s.flying id = [f] := by
    intro f hf
    rcases T.one with h1 | ⟨g, h1, -⟩
    · rw [h1] at hf; simp at hf
    · rw [h1] at hf ⊢; simp at hf; rw [hf]
  cases hs with
  | client a => exact .other _ _ a (List.Sublist.refl _) rfl rfl (hq _ rfl)
  | idle => exact .away _ _ (List.Sublist.refl _) rfl rfl (by simp)
  | shutdown => exact .away _ _ (by rw [flying_stop]; exact List.Sublist.refl _) rfl rfl (by simp)
  | empty r d rs hd hr hp hl hev =>
    exact .other _ _ (.op (.load d.name)) (List.Sublist.refl _) (by rw [hev]; rfl) rfl
      (by rw [hev]; exact load_none_not_touches)
  | undecodable r d rs j hd hr hp hl hev hst =>
    by_cases hj : j.id = id
    · exact .taken r d.name j _ _ hev hj (T.idle hev hj) (Or.inl (T.idle hev hj)) rfl
    · exact .other _ _ (.op (.load d.name)) (List.Sublist.refl _) (by rw [hev]; rfl) rfl
        (by rw [hev]; exact load_not_touches hj)
  | panicked r d rs j hd hr hp hl hev hst =>
    have hsub := fly_crash id (s.conc.step now (.op (.load d.name))).2 hr
    by_cases hj : j.id = id
    · refine .taken r d.name j _ _ hev hj (T.idle hev hj) (Or.inl ?_) rfl
      rw [T.idle hev hj] at hsub
      exact List.sublist_nil.mp hsub
    · exact .other _ _ (.op (.load d.name)) hsub (by rw [hev]; rfl) rfl
        (by rw [hev]; exact load_not_touches hj)
  | started r d rs j t hd hr hp hl hev hst =>
    obtain ⟨A, B, f1, f2⟩ := flying_set id hr
    obtain ⟨htid, hfin⟩ := start_running hst
    by_cases hj : j.id = id
    · have h1 := T.idle hev hj
      refine .taken r d.name j _ _ hev hj h1 (Or.inr ⟨t, ?_⟩) rfl
      rw [f1] at h1
      simp only [List.append_eq_nil_iff] at h1
      obtain ⟨⟨hA, hF⟩, hB⟩ := h1
      rw [f2, hA, hB]
      simp only [List.filter_append, hF, List.nil_append, List.append_nil]
      simp [htid, hj]
    · refine .other _ _ (.op (.load d.name)) ?_ (by rw [hev]; rfl) rfl
        (by rw [hev]; exact load_not_touches hj)
      rw [f2, f1]
      simp only [List.filter_append]
      have : ([⟨t, .running⟩] : List Flight).filter (fun f => f.task.id == id) = [] := by
        simp [htid, hj]
      rw [this]; simp
  | overflowed r i b d rs t j hd hr hfl hjn ho =>
    by_cases hid : t.id = id
    · have h1 := single _ (mem_flying hr (List.mem_of_getElem? hfl) hid)
      refine .overflowed r t j _ hid h1 ?_ rfl
      obtain ⟨A, B, f1, f2⟩ := flying_set id hr
      obtain ⟨a, b', e1, e2⟩ := erase_split hfl
      rw [f1, e1] at h1
      have hA : (A ++ a.filter (fun f => f.task.id == id)) ++ (⟨t, .running⟩ : Flight) ::
          (b'.filter (fun f => f.task.id == id) ++ B) = [⟨t, .running⟩] := by
        rw [← h1]; simp [List.filter_append, hid]
      obtain ⟨q1, q2, -⟩ := append_singleton hA
      rw [List.append_eq_nil_iff] at q1 q2
      rw [f2, q1.1, q2.2]; simp [RunnerState.crash]
    · refine .away _ _ (fly_crash id s.conc hr) rfl rfl ?_
      intro r' t' j' c' he
      simp only [SEv.ended.injEq] at he
      rw [← he.2.1]; exact hid
  | ended r i b d rs t j o hd hr hfl hjn ho =>
    obtain ⟨A, B, f1, f2⟩ := flying_set id hr
    by_cases hid : t.id = id
    · have h1 := single _ (mem_flying hr (List.mem_of_getElem? hfl) hid)
      refine .ended r t j d o _ hid ho h1 ?_ rfl
      obtain ⟨a, b', e1, e2⟩ := filter_set_same (f := ⟨t, .running⟩) (g := ⟨t, .reporting o⟩) hfl
        (p := fun f => f.task.id == id) (by simp [hid]) (by simp [hid])
      rw [f1, e1] at h1
      have hA : (A ++ a) ++ (⟨t, .running⟩ : Flight) :: (b' ++ B) = [⟨t, .running⟩] := by
        rw [← h1]; simp
      obtain ⟨q1, q2, -⟩ := append_singleton hA
      rw [f2]
      simp only [e2]
      rw [show A ++ (a ++ (⟨t, .reporting o⟩ : Flight) :: b') ++ B = (A ++ a) ++ ⟨t, .reporting o⟩ :: (b' ++ B) by simp,
        q1, q2]; rfl
    · refine .away _ _ ?_ rfl rfl ?_
      · rw [f2, f1]
        simp only
        rw [filter_set_other hfl (by simp [hid]) (by simp [hid])]
        exact List.Sublist.refl _
      · intro r' t' j' c' he
        simp only [SEv.ended.injEq] at he
        rw [← he.2.1]; exact hid
  | reported r i rs t o hr hfl =>
    obtain ⟨A, B, f1, f2⟩ := flying_set id hr
    obtain ⟨a, b, e1, e2⟩ := erase_split hfl
    have hrep : Reportable t o := R r ⟨t, .reporting o⟩ o
      (by rw [flightsOf_some hr]; exact List.mem_of_getElem? hfl) rfl
    by_cases hid : t.id = id
    · have h1 := single _ (mem_flying hr (List.mem_of_getElem? hfl) hid)
      refine .reported r t o _ hid hrep h1 ?_ rfl
      rw [f1, e1] at h1
      have hA : (A ++ a.filter (fun f => f.task.id == id)) ++ (⟨t, .reporting o⟩ : Flight) ::
          (b.filter (fun f => f.task.id == id) ++ B) = [⟨t, .reporting o⟩] := by
        rw [← h1]; simp [List.filter_append, hid]
      obtain ⟨q1, q2, -⟩ := append_singleton hA
      rw [f2]
      simp only [e2, List.filter_append]
      rw [← List.append_assoc, q1, List.nil_append]; exact q2
    · refine .other _ _ (.op o) ?_ rfl rfl ?_
      · rw [f2, f1]
        simp only [e2]
        rw [e1]
        simp [List.filter_append, hid]
      · cases ht : (s.conc.step now (.op o)).1.touches id with
        | false => rfl
        | true => exact absurd (reportable_touches hrep ht).symm hid

/-- an execution that has not led to a recorded outcome and did not fail so far -/
def Flight.owes (f : Flight) : Bool :=
  match f.phase with
  | .running => true
  | .reporting (.snoozed _ _) => true
  | .reporting _ => false

/-- an ended execution whose failure is about to be recorded -/
def Flight.failing (f : Flight) : Bool :=
  match f.phase with
  | .reporting (.retryable _ _ _) => true
  | .reporting (.discarded _ _) => true
  | _ => false

theorem report_shape {d : Runner} {now : Time} {t : Task} {j : Joined} {o : Op}
    (h : d.report now t j = some o) :
    (j.isFailure = true ∧ Flight.owes ⟨t, .reporting o⟩ = false ∧ Flight.failing ⟨t, .reporting o⟩ = true) ∨
    (j.isFailure = false ∧ Flight.failing ⟨t, .reporting o⟩ = false) := by
  have herr : ∀ e, t.handleError now e = some o →
      Flight.owes ⟨t, .reporting o⟩ = false ∧ Flight.failing ⟨t, .reporting o⟩ = true := by
    intro e he
    unfold Task.handleError at he
    split at he
    · simp only [Option.some.injEq] at he; subst he; exact ⟨rfl, rfl⟩
    · rw [Option.map_eq_some_iff] at he
      obtain ⟨x, -, rfl⟩ := he
      exact ⟨rfl, rfl⟩
  cases j with
  | elapsed l => exact Or.inl ⟨rfl, herr _ h⟩
  | joinError p m => exact Or.inl ⟨rfl, herr _ h⟩
  | result r =>
    cases r with
    | done => simp only [Runner.report, Option.some.injEq] at h; subst h; exact Or.inr ⟨rfl, rfl⟩
    | cancel reason => simp only [Runner.report, Option.some.injEq] at h; subst h; exact Or.inr ⟨rfl, rfl⟩
    | snooze d =>
      simp only [Runner.report, Option.map_eq_some_iff] at h
      obtain ⟨x, -, rfl⟩ := h
      exact Or.inr ⟨rfl, rfl⟩
    | error ty msg => exact Or.inl ⟨rfl, herr _ h⟩

end Rexecutor
