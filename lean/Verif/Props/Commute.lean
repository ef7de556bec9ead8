import Verif.Model.Api
import Verif.Model.Pg
import Verif.Spec.Samples
import Verif.Spec.Pg

/-! # C111: calls about different jobs can be made in any order -/

namespace Rexecutor

/-- The job a call is about, if it is one of the calls about one job. -/
def Api.about : Api → Option Int
  | .op (.complete id) | .op (.retryable id _ _) | .op (.discarded id _) | .op (.cancelled id _)
  | .op (.snoozed id _) | .op (.rerun id) => some id
  | .op (.update job) => some job.id
  | _ => none

/-- All calls are about one job each, and no two about the same. -/
def DifferentJobs (cs : List TApi) : Prop :=
  (∀ c ∈ cs, c.call.about ≠ none) ∧ (cs.map fun c => c.call.about).Nodup

instance (cs : List TApi) : Decidable (DifferentJobs cs) := by
  unfold DifferentJobs; infer_instance

/-! ## In memory -/

private theorem upd_none {i j : Int} {f g : Job → Job} (hij : i ≠ j) (hg : ∀ x : Job, x.id = j → (g x).id = j)
    {ks ks₂ : List KeyedJob} {b : Job} (h1 : updateById i f ks = none) (h2 : updateById j g ks = some (ks₂, b)) :
    updateById i f ks₂ = none := by
  induction ks generalizing ks₂ b with
  | nil => cases h2
  | cons k ks ih =>
    simp only [updateById] at h1 h2
    split at h1
    · cases h1
    · rename_i hki
      simp only [Option.map_eq_none_iff] at h1
      split at h2
      · rename_i hkj
        simp only [Option.some.injEq, Prod.mk.injEq] at h2
        obtain ⟨rfl, -⟩ := h2
        simp only [updateById, hg _ hkj, h1]
        rw [if_neg (fun h => hij h.symm)]; rfl
      · simp only [Option.map_eq_some_iff] at h2
        obtain ⟨⟨ks', b'⟩, h2, h3⟩ := h2
        simp only [Prod.mk.injEq] at h3
        obtain ⟨rfl, -⟩ := h3
        simp only [updateById, if_neg hki, ih h1 h2]; rfl

private theorem upd_both {i j : Int} {f g : Job → Job} (hij : i ≠ j) (hf : ∀ x : Job, x.id = i → (f x).id = i)
    (hg : ∀ x : Job, x.id = j → (g x).id = j) {ks ks₁ ks₂ : List KeyedJob} {a b : Job}
    (h1 : updateById i f ks = some (ks₁, a)) (h2 : updateById j g ks = some (ks₂, b)) :
    ∃ ks₃, updateById j g ks₁ = some (ks₃, b) ∧ updateById i f ks₂ = some (ks₃, a) := by
  induction ks generalizing ks₁ ks₂ a b with
  | nil => cases h2
  | cons k ks ih =>
    simp only [updateById] at h1 h2
    split at h1
    · rename_i hki
      rw [if_neg (by rw [hki]; exact hij)] at h2
      simp only [Option.some.injEq, Prod.mk.injEq] at h1
      obtain ⟨rfl, rfl⟩ := h1
      simp only [Option.map_eq_some_iff] at h2
      obtain ⟨⟨ks', b'⟩, h2, h3⟩ := h2
      simp only [Prod.mk.injEq] at h3
      obtain ⟨rfl, rfl⟩ := h3
      exact ⟨{ k with job := f k.job } :: ks', by simp [updateById, hf _ hki, hij, h2], by simp [updateById, hki]⟩
    · rename_i hki
      simp only [Option.map_eq_some_iff] at h1
      obtain ⟨⟨ks', a'⟩, h1, h3⟩ := h1
      simp only [Prod.mk.injEq] at h3
      obtain ⟨rfl, rfl⟩ := h3
      split at h2
      · rename_i hkj
        simp only [Option.some.injEq, Prod.mk.injEq] at h2
        obtain ⟨rfl, rfl⟩ := h2
        exact ⟨{ k with job := g k.job } :: ks', by simp [updateById, hkj],
          by simp [updateById, hg _ hkj, Ne.symm hij, h1]⟩
      · rename_i hkj
        simp only [Option.map_eq_some_iff] at h2
        obtain ⟨⟨ks'', b'⟩, h2, h3⟩ := h2
        simp only [Prod.mk.injEq] at h3
        obtain ⟨rfl, rfl⟩ := h3
        obtain ⟨ks₃, g1, g2⟩ := ih h1 h2
        exact ⟨k :: ks₃, by simp [updateById, hkj, g1], by simp [updateById, hki, g2]⟩

/-- Two states of the backend with the same jobs, and the same messages in every channel, perhaps in
a different order. -/
structure SameUpToOrder (m m' : Mem) : Prop where
  jobs : m.jobs = m'.jobs
  allocated : m.allocated = m'.allocated
  paused : m.paused = m'.paused
  length : m.subs.length = m'.subs.length
  channels : ∀ (n : Nat) (s s' : Sub), m.subs[n]? = some s → m'.subs[n]? = some s' →
    s.executor = s'.executor ∧ s.queue.Perm s'.queue

private theorem same_refl (m : Mem) : SameUpToOrder m m :=
  ⟨rfl, rfl, rfl, rfl, fun n s s' h h' => by rw [h] at h'; cases h'; exact ⟨rfl, .refl _⟩⟩

private theorem same_trans {a b c : Mem} (h : SameUpToOrder a b) (h' : SameUpToOrder b c) : SameUpToOrder a c := by
  refine ⟨h.jobs.trans h'.jobs, h.allocated.trans h'.allocated, h.paused.trans h'.paused, h.length.trans h'.length,
    fun n s s'' h1 h3 => ?_⟩
  have : n < b.subs.length := h.length ▸ (List.getElem?_eq_some_iff.mp h1).1
  obtain ⟨g1, g2⟩ := h.channels n s _ h1 (List.getElem?_eq_getElem this)
  obtain ⟨g3, g4⟩ := h'.channels n _ s'' (List.getElem?_eq_getElem this) h3
  exact ⟨g1.trans g3, g2.trans g4⟩

/-- The message of a call, in one channel. -/
private def posted (paused wake : Bool) (x : String) (t : Time) (s : Sub) : Sub :=
  { s with queue := s.queue ++ if wake = true ∧ paused = false ∧ s.executor = x then [t] else [] }

private theorem onJob_some {i : Int} {f : Job → Job} {w : Bool} {m : Mem} {ks : List KeyedJob} {a : Job}
    (h : updateById i f m.jobs = some (ks, a)) :
    m.onJob i f w = (.unit, { m with jobs := ks, subs := m.subs.map (posted m.paused w a.executor a.scheduledAt) }) := by
  have hsub : (if w then ({ m with jobs := ks } : Mem).notify a.executor a.scheduledAt else { m with jobs := ks }) =
      { m with jobs := ks, subs := m.subs.map (posted m.paused w a.executor a.scheduledAt) } := by
    obtain ⟨jobs, allocated, subs, paused⟩ := m
    have same : ∀ p q : Bool, ¬ (q = true ∧ p = false) → subs.map (posted p q a.executor a.scheduledAt) = subs := by
      intro p q hpq
      conv => rhs; rw [← List.map_id subs]
      refine List.map_congr_left fun s _ => ?_
      simp only [posted, id]
      rw [if_neg (fun h => hpq ⟨h.1, h.2.1⟩), List.append_nil]
    cases w with
    | false => simp only [same _ false (by simp)]; rfl
    | true =>
      cases paused with
      | true => simp only [same true true (by simp)]; rfl
      | false =>
        simp only [if_true, Mem.notify]
        rw [if_neg (by simp)]
        congr 1
        refine List.map_congr_left fun s _ => ?_
        simp only [posted]
        by_cases hx : s.executor = a.executor <;> simp [hx]
  simp only [Mem.onJob, h, hsub]

private theorem onJob_none {i : Int} {f : Job → Job} {w : Bool} {m : Mem}
    (h : updateById i f m.jobs = none) : m.onJob i f w = (.err (.jobNotFound i), m) := by
  simp only [Mem.onJob, h]

private theorem posted_comm (p w w' : Bool) (x x' : String) (t t' : Time) (s : Sub) :
    ((posted p w x t s).executor = (posted p w' x' t' (posted p w x t s)).executor) ∧
    (posted p w' x' t' (posted p w x t s)).executor = (posted p w x t (posted p w' x' t' s)).executor ∧
    (posted p w' x' t' (posted p w x t s)).queue.Perm (posted p w x t (posted p w' x' t' s)).queue := by
  refine ⟨rfl, rfl, ?_⟩
  simp only [posted, List.append_assoc]
  exact List.Perm.append_left _ List.perm_append_comm

/-- Two such calls, in either order. -/
private theorem swap_onJob {i j : Int} {f g : Job → Job} (hij : i ≠ j) (hf : ∀ x : Job, x.id = i → (f x).id = i)
    (hg : ∀ x : Job, x.id = j → (g x).id = j) (w w' : Bool) (m : Mem) :
    ((m.onJob i f w).2.onJob j g w').1 = (m.onJob j g w').1 ∧
    ((m.onJob j g w').2.onJob i f w).1 = (m.onJob i f w).1 ∧
    SameUpToOrder ((m.onJob i f w).2.onJob j g w').2 ((m.onJob j g w').2.onJob i f w).2 := by
  cases h1 : updateById i f m.jobs with
  | none =>
    rw [onJob_none h1]
    cases h2 : updateById j g m.jobs with
    | none => simp only [onJob_none h2, onJob_none h1]; exact ⟨trivial, trivial, same_refl _⟩
    | some p =>
      obtain ⟨ks₂, b⟩ := p
      have h3 := upd_none hij hg h1 h2
      rw [onJob_some h2, onJob_none (by exact h3)]
      exact ⟨rfl, rfl, same_refl _⟩
  | some p =>
    obtain ⟨ks₁, a⟩ := p
    rw [onJob_some h1]
    cases h2 : updateById j g m.jobs with
    | none =>
      have h3 := upd_none (Ne.symm hij) hf h2 h1
      rw [onJob_none h2, onJob_none (by exact h3), onJob_some h1]
      exact ⟨rfl, rfl, same_refl _⟩
    | some p =>
      obtain ⟨ks₂, b⟩ := p
      obtain ⟨ks₃, g1, g2⟩ := upd_both hij hf hg h1 h2
      rw [onJob_some h2, onJob_some (by exact g1), onJob_some (by exact g2)]
      refine ⟨rfl, rfl, rfl, rfl, rfl, by simp, fun n s s' e1 e2 => ?_⟩
      simp only [List.map_map, List.getElem?_map, Option.map_eq_some_iff] at e1 e2
      obtain ⟨c, c1, rfl⟩ := e1
      obtain ⟨c', c2, rfl⟩ := e2
      rw [c1] at c2; cases c2
      exact (posted_comm m.paused w w' a.executor b.executor a.scheduledAt b.scheduledAt c).2

/-- The same call on two such states. -/
private theorem cong_onJob {m m' : Mem} (h : SameUpToOrder m m') (i : Int) (f : Job → Job) (w : Bool) :
    (m.onJob i f w).1 = (m'.onJob i f w).1 ∧ SameUpToOrder (m.onJob i f w).2 (m'.onJob i f w).2 := by
  cases h1 : updateById i f m.jobs with
  | none => rw [onJob_none h1, onJob_none (h.jobs ▸ h1)]; exact ⟨rfl, h⟩
  | some p =>
    obtain ⟨ks, a⟩ := p
    rw [onJob_some h1, onJob_some (h.jobs ▸ h1)]
    refine ⟨rfl, rfl, h.allocated, h.paused, by simp [h.length], fun n s s' e1 e2 => ?_⟩
    simp only [List.getElem?_map, Option.map_eq_some_iff] at e1 e2
    obtain ⟨c, c1, rfl⟩ := e1
    obtain ⟨c', c2, rfl⟩ := e2
    obtain ⟨g1, g2⟩ := h.channels n c c' c1 c2
    simp only [posted, g1, h.paused]
    exact ⟨trivial, g2.append_right _⟩

private theorem api_onJob (t : Time) {c : Api} {i : Int} (h : c.about = some i) :
    ∃ f w, (∀ x : Job, x.id = i → (f x).id = i) ∧ ∀ m : Mem, m.api t c = m.onJob i f w := by
  cases c with
  | enqueue e => cases h
  | op o =>
    cases o <;> simp only [Api.about, Option.some.injEq, reduceCtorEq] at h <;> subst h
    all_goals
      refine ⟨_, _, ?_, fun m => rfl⟩
      intro x hx
      first | exact hx | rfl

private theorem about_some {cs : List TApi} (h : ∀ c ∈ cs, c.call.about ≠ none) {c : TApi} (hc : c ∈ cs) :
    ∃ i, c.call.about = some i := Option.ne_none_iff_exists'.mp (h c hc)

private theorem cong_run {m m' : Mem} (h : SameUpToOrder m m') (cs : List TApi) (hc : ∀ c ∈ cs, c.call.about ≠ none) :
    m.results cs = m'.results cs ∧ SameUpToOrder (m.runApi cs) (m'.runApi cs) := by
  induction cs generalizing m m' with
  | nil => exact ⟨rfl, h⟩
  | cons c cs ih =>
    obtain ⟨i, hi⟩ := about_some hc List.mem_cons_self
    obtain ⟨f, w, -, hf⟩ := api_onJob c.now hi
    simp only [Mem.results, Mem.runApi, hf]
    obtain ⟨h1, h2⟩ := cong_onJob h i f w
    obtain ⟨g1, g2⟩ := ih h2 fun c hc' => hc c (List.mem_cons_of_mem _ hc')
    exact ⟨by rw [h1, g1], g2⟩

private theorem different_tail {c : TApi} {cs : List TApi} (h : DifferentJobs (c :: cs)) : DifferentJobs cs :=
  ⟨fun x hx => h.1 x (List.mem_cons_of_mem _ hx), (List.nodup_cons.mp h.2).2⟩

private theorem different_perm {cs ds : List TApi} (hp : cs.Perm ds) (h : DifferentJobs cs) : DifferentJobs ds :=
  ⟨fun x hx => h.1 x (hp.mem_iff.mpr hx), (hp.map _).nodup_iff.mp h.2⟩

/-- **C111, in memory.** Take any store and any calls about different jobs (results of executions,
reruns, whole-job updates), each at its own time, whether the jobs exist or not. In whatever order the
calls are made: each returns the same, the stored jobs in the end are the same, and every stream has
been sent the same messages, perhaps in another order. -/
theorem C111_in_memory (m : Mem) (cs ds : List TApi) (hp : cs.Perm ds) (hd : DifferentJobs cs) :
    (cs.zip (m.results cs)).Perm (ds.zip (m.results ds)) ∧ SameUpToOrder (m.runApi cs) (m.runApi ds) := by
  induction hp generalizing m with
  | nil => exact ⟨.refl _, same_refl _⟩
  | cons c hp ih =>
    obtain ⟨h1, h2⟩ := ih (m.api c.now c.call).2 (different_tail hd)
    exact ⟨h1.cons _, h2⟩
  | swap b a l =>
    obtain ⟨i, hi⟩ := about_some hd.1 (c := a) (by simp)
    obtain ⟨j, hj⟩ := about_some hd.1 (c := b) (by simp)
    have hij : i ≠ j := by
      have := hd.2
      simp only [List.map_cons, List.nodup_cons, List.mem_cons, not_or] at this
      intro h; subst h
      exact this.1.1 (hi.trans hj.symm)
    obtain ⟨f, w, hf, ef⟩ := api_onJob a.now hi
    obtain ⟨g, w', hg, eg⟩ := api_onJob b.now hj
    obtain ⟨s1, s2, s3⟩ := swap_onJob hij hf hg w w' m
    obtain ⟨c1, c2⟩ := cong_run s3 l fun c hc => hd.1 c (by simp [hc])
    simp only [Mem.results, Mem.runApi, ef, eg, s1, s2, c1, List.zip_cons_cons]
    refine ⟨?_, ?_⟩
    · exact List.Perm.swap _ _ _
    · exact c2
  | trans h1 h2 ih1 ih2 =>
    obtain ⟨a1, a2⟩ := ih1 m hd
    obtain ⟨b1, b2⟩ := ih2 m (different_perm h1 hd)
    exact ⟨a1.trans b1, same_trans a2 b2⟩

/-- Three results recorded for two jobs and a third that does not exist. -/
private def someCalls : List TApi :=
  [⟨5, .op (.complete 1)⟩, ⟨7, .op (.retryable 0 20 sampleErr)⟩, ⟨6, .op (.cancelled 9 sampleErr)⟩]

/-- The hypotheses are met. -/
example : DifferentJobs someCalls ∧
    (Mem.results { jobs := [⟨sampleJob 0, none⟩, ⟨sampleJob 1, none⟩] } someCalls) =
      [.unit, .unit, .err (.jobNotFound 9)] ∧
    (Mem.results { jobs := [⟨sampleJob 0, none⟩, ⟨sampleJob 1, none⟩] } someCalls.reverse) =
      [.err (.jobNotFound 9), .unit, .unit] := by decide

/-! ## On Postgres -/

private theorem updateRows_comm {i j : Int} {f g : Row → Row} (hij : i ≠ j) (hf : ∀ r, (f r).id = r.id)
    (hg : ∀ r, (g r).id = r.id) (rows : List Row) :
    (updateRows j g (updateRows i f rows).1).1 = (updateRows i f (updateRows j g rows).1).1 ∧
    (updateRows j g (updateRows i f rows).1).2 = (updateRows j g rows).2 := by
  simp only [updateRows]
  constructor
  · simp only [List.map_map]
    refine List.map_congr_left fun r _ => ?_
    simp only [Function.comp]
    by_cases h1 : r.id = i
    · by_cases h2 : r.id = j
      · exact absurd (h1.symm.trans h2) hij
      · simp [h1, hf, hij]
    · by_cases h2 : r.id = j
      · simp [h2, hg, Ne.symm hij]
      · simp [h1, h2]
  · simp only [List.filter_map, List.length_map]
    congr 2
    funext r
    simp only [Function.comp]
    split <;> simp [hf]

/-- What an update of `n` rows returns. -/
private def answer (i : Int) : Nat → Res
  | 0 => .err (.jobNotFound i)
  | 1 => .unit
  | _ => .err .badState

private theorem onRow_eq (i : Int) (f : Row → Row) (p : Pg) :
    p.onRow i f = (answer i (updateRows i f p.rows).2, { p with rows := (updateRows i f p.rows).1 }) := by
  have h0 : (updateRows i f p.rows).2 = 0 → (updateRows i f p.rows).1 = p.rows := by
    intro h
    simp only [updateRows, List.length_eq_zero_iff, List.filter_eq_nil_iff, beq_iff_eq] at h ⊢
    conv => rhs; rw [← List.map_id p.rows]
    exact List.map_congr_left fun r hr => by rw [if_neg (h r hr)]; rfl
  unfold Pg.onRow
  generalize updateRows i f p.rows = u at h0
  obtain ⟨rs, n⟩ := u
  match n with
  | 0 => have h := h0 rfl; simp only at h; subst h; rfl
  | 1 => rfl
  | n + 2 => rfl

private theorem swap_onRow {i j : Int} {f g : Row → Row} (hij : i ≠ j) (hf : ∀ r, (f r).id = r.id)
    (hg : ∀ r, (g r).id = r.id) (p : Pg) :
    ((p.onRow i f).2.onRow j g).1 = (p.onRow j g).1 ∧ ((p.onRow j g).2.onRow i f).1 = (p.onRow i f).1 ∧
    ((p.onRow i f).2.onRow j g).2 = ((p.onRow j g).2.onRow i f).2 := by
  obtain ⟨a1, a2⟩ := updateRows_comm hij hf hg p.rows
  obtain ⟨-, b2⟩ := updateRows_comm (Ne.symm hij) hg hf p.rows
  simp only [onRow_eq, a1, a2, b2]
  exact ⟨trivial, trivial, trivial⟩

private theorem api_onRow (t : Time) {c : Api} {i : Int} (h : c.about = some i) :
    ∃ f, (∀ r, (f r).id = r.id) ∧ ∀ (hash : HashFn) tie (p : Pg), p.api hash tie t c = p.onRow i f := by
  cases c with
  | enqueue e => cases h
  | op o =>
    cases o <;> simp only [Api.about, Option.some.injEq, reduceCtorEq] at h <;> subst h
    all_goals
      refine ⟨_, ?_, fun hash tie p => rfl⟩
      intro r
      rfl

private theorem ties_run (hash : HashFn) (ties ties' : Nat → Int → Nat) (cs : List TApi) (hc : ∀ c ∈ cs, c.call.about ≠ none)
    (p : Pg) : p.results hash ties cs = p.results hash ties' cs ∧ p.runApi hash ties cs = p.runApi hash ties' cs := by
  induction cs generalizing p with
  | nil => exact ⟨rfl, rfl⟩
  | cons c cs ih =>
    obtain ⟨i, hi⟩ := about_some hc List.mem_cons_self
    obtain ⟨f, -, hf⟩ := api_onRow c.now hi
    simp only [Pg.results, Pg.runApi, hf]
    obtain ⟨g1, g2⟩ := ih (fun c hc' => hc c (List.mem_cons_of_mem _ hc')) (p.onRow i f).2
    exact ⟨by rw [g1], g2⟩

/-- **C111, on Postgres.** Take any table and any calls about different jobs, each at its own time,
whether the jobs exist or not. In whatever order the calls are made, each returns the same and the table
in the end is the same. -/
theorem C111_postgres (hash : HashFn) (ties ties' : Nat → Int → Nat) (p : Pg) (cs ds : List TApi) (hp : cs.Perm ds)
    (hd : DifferentJobs cs) :
    (cs.zip (p.results hash ties cs)).Perm (ds.zip (p.results hash ties' ds)) ∧
    p.runApi hash ties cs = p.runApi hash ties' ds := by
  induction hp generalizing p with
  | nil => exact ⟨.refl _, rfl⟩
  | @cons c cs ds hp ih =>
    obtain ⟨i, hi⟩ := about_some hd.1 List.mem_cons_self
    obtain ⟨f, -, hf⟩ := api_onRow c.now hi
    obtain ⟨h1, h2⟩ := ih (p.onRow i f).2 (different_tail hd)
    simp only [Pg.results, Pg.runApi, hf, List.zip_cons_cons]
    exact ⟨h1.cons _, h2⟩
  | swap b a l =>
    obtain ⟨i, hi⟩ := about_some hd.1 (c := a) (by simp)
    obtain ⟨j, hj⟩ := about_some hd.1 (c := b) (by simp)
    have hij : i ≠ j := by
      have := hd.2
      simp only [List.map_cons, List.nodup_cons, List.mem_cons, not_or] at this
      intro h; subst h
      exact this.1.1 (hi.trans hj.symm)
    obtain ⟨f, hf, ef⟩ := api_onRow a.now hi
    obtain ⟨g, hg, eg⟩ := api_onRow b.now hj
    obtain ⟨s1, s2, s3⟩ := swap_onRow hij hf hg p
    obtain ⟨c1, c2⟩ := ties_run hash ties ties' l (fun c hc => hd.1 c (by simp [hc])) ((p.onRow i f).2.onRow j g).2
    simp only [Pg.results, Pg.runApi, ef, eg, s1, s2, ← s3, c1, c2, List.zip_cons_cons]
    exact ⟨List.Perm.swap _ _ _, trivial⟩
  | trans h1 h2 ih1 ih2 =>
    obtain ⟨a1, a2⟩ := ih1 p hd
    obtain ⟨b1, b2⟩ := ih2 p (different_perm h1 hd)
    have := (ties_run hash ties ties' _ (different_perm h1 hd).1 p)
    exact ⟨a1.trans (this.1 ▸ b1), a2.trans (this.2 ▸ b2)⟩

/-- The hypotheses are met: two rows and a missing one. -/
example :
    let p := Pg.runApi sampleHash (fun _ _ => 0) {} [⟨0, .enqueue sampleEnq⟩, ⟨0, .enqueue sampleEnq⟩]
    let cs : List TApi := [⟨5000, .op (.complete 1)⟩, ⟨7000, .op (.retryable 2 20000 sampleErr)⟩, ⟨6000, .op (.cancelled 9 sampleErr)⟩]
    DifferentJobs cs ∧ p.results sampleHash (fun _ _ => 0) cs = [.unit, .unit, .err (.jobNotFound 9)] ∧
    p.results sampleHash (fun _ _ => 0) cs.reverse = [.err (.jobNotFound 9), .unit, .unit] ∧
    (p.runApi sampleHash (fun _ _ => 0) cs).rows.map (·.status) = [.complete, .retryable] := by
  decide

end Rexecutor
