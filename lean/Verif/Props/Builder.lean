import Verif.Model.Builder
import Verif.Lemmas.Life
import Verif.Props.Query
import Verif.Spec.Store

/-! # C35, C36, C37: what is enqueued is what is received -/

namespace Rexecutor

/-! ## C35 -/

/-- The arguments of the calls of one kind, in order. -/
def BuilderCall.data? : BuilderCall D M → Option D
  | .withData d => some d
  | _ => none
def BuilderCall.metadata? : BuilderCall D M → Option M
  | .withMetadata m => some m
  | _ => none
def BuilderCall.maxAttempts? : BuilderCall D M → Option Nat
  | .withMaxAttempts n => some n
  | _ => none
/-- The schedule time asked for, by `schedule_at` or `schedule_in`. -/
def BuilderCall.scheduled? : BuilderCall D M → Option Time
  | .scheduleAt t => some t
  | .scheduleIn now d => some (now + d)
  | _ => none
def BuilderCall.criteria? : BuilderCall D M → Option Criteria
  | .unique c => some c
  | _ => none
def BuilderCall.priority? : BuilderCall D M → Option Nat
  | .withPriority p => some p
  | _ => none
def BuilderCall.tag? : BuilderCall D M → Option String
  | .addTag t => some t
  | _ => none
def BuilderCall.setsTags : BuilderCall D M → Bool
  | .withTags _ => true
  | _ => false

private theorem getLast_or (a : α) (l : List α) (o : Option α) :
    (a :: l).getLast?.or o = l.getLast?.or (some a) := by
  rw [List.getLast?_cons]; cases l.getLast? <;> rfl

private theorem getLast_getD (a : α) (l : List α) (d : α) :
    (a :: l).getLast?.getD d = l.getLast?.getD a := by
  rw [List.getLast?_cons]; rfl

private theorem applyAll_fields (b : JobBuilder D M) (calls : List (BuilderCall D M)) :
    (b.applyAll calls).data = (calls.filterMap BuilderCall.data?).getLast?.or b.data ∧
    (b.applyAll calls).metadata = (calls.filterMap BuilderCall.metadata?).getLast?.or b.metadata ∧
    (b.applyAll calls).maxAttempts = (calls.filterMap BuilderCall.maxAttempts?).getLast?.or b.maxAttempts ∧
    (b.applyAll calls).scheduledAt = (calls.filterMap BuilderCall.scheduled?).getLast?.getD b.scheduledAt ∧
    (b.applyAll calls).criteria = (calls.filterMap BuilderCall.criteria?).getLast?.or b.criteria ∧
    (b.applyAll calls).priority = (calls.filterMap BuilderCall.priority?).getLast?.getD b.priority := by
  induction calls generalizing b with
  | nil => simp [JobBuilder.applyAll]
  | cons c calls ih =>
    have := ih (b.apply c)
    simp only [JobBuilder.applyAll, List.foldl_cons] at this ⊢
    cases c <;>
      simpa only [JobBuilder.apply, List.filterMap_cons, BuilderCall.data?, BuilderCall.metadata?,
        BuilderCall.maxAttempts?, BuilderCall.scheduled?, BuilderCall.criteria?, BuilderCall.priority?,
        getLast_or, getLast_getD] using this

private theorem applyAll_tags (b : JobBuilder D M) (calls : List (BuilderCall D M))
    (h : ∀ c ∈ calls, c.setsTags = false) :
    (b.applyAll calls).tags = b.tags ++ calls.filterMap BuilderCall.tag? := by
  induction calls generalizing b with
  | nil => simp [JobBuilder.applyAll]
  | cons c calls ih =>
    have := ih (b.apply c) (fun c hc => h c (by simp [hc]))
    simp only [JobBuilder.applyAll, List.foldl_cons] at this ⊢
    rw [this]
    have hc := h c (by simp)
    cases c <;> simp_all [JobBuilder.apply, List.filterMap_cons, BuilderCall.tag?, BuilderCall.setsTags]

/-- **C35.** The job a builder created at time `now` enqueues, after any chain of
calls: name of the executor; for data, metadata, max_attempts, schedule time,
criteria and priority the argument of the last call setting it, and otherwise
null, null, the executor's max_attempts, `now`, the executor's criteria and 0. -/
theorem C35_builder (x : ExecutorConsts) (cd : Codec D) (cm : Codec M) (now : Time)
    (calls : List (BuilderCall D M)) (e : EnqueuableJob)
    (h : ((JobBuilder.init now).applyAll calls).build x cd cm = some e) :
    e.executor = x.name ∧
    (match (calls.filterMap BuilderCall.data?).getLast? with
      | some d => cd.enc d = some e.data
      | none => e.data = .null) ∧
    (match (calls.filterMap BuilderCall.metadata?).getLast? with
      | some m => cm.enc m = some e.metadata
      | none => e.metadata = .null) ∧
    e.maxAttempts = (calls.filterMap BuilderCall.maxAttempts?).getLast?.getD x.maxAttempts ∧
    e.scheduledAt = (calls.filterMap BuilderCall.scheduled?).getLast?.getD now ∧
    e.criteria = (match (calls.filterMap BuilderCall.criteria?).getLast? with
      | some c => some c
      | none => x.criteria) ∧
    e.priority = (calls.filterMap BuilderCall.priority?).getLast?.getD 0 := by
  obtain ⟨h1, h2, h3, h4, h5, h6⟩ := applyAll_fields (JobBuilder.init now) calls
  unfold JobBuilder.build at h
  rw [h1, h2, h3, h4, h5, h6] at h
  simp only [JobBuilder.init, Option.or_none] at h
  split at h
  · simp at h
  · rename_i data hdata
    split at h
    · simp at h
    · rename_i metadata hmeta
      simp only [Option.some.injEq] at h
      subst h
      refine ⟨rfl, ?_, ?_, rfl, rfl, ?_, rfl⟩
      · unfold Codec.encOption at hdata
        split at hdata
        · rename_i hn; simp only [Option.some.injEq] at hdata; rw [hn, ← hdata]
        · rename_i hn; rw [hn]; exact hdata
      · unfold Codec.encOption at hmeta
        split at hmeta
        · rename_i hn; simp only [Option.some.injEq] at hmeta; rw [hn, ← hmeta]
        · rename_i hn; rw [hn]; exact hmeta
      · cases (calls.filterMap BuilderCall.criteria?).getLast? <;> rfl

private theorem applyAll_append (b : JobBuilder D M) (a c : List (BuilderCall D M)) :
    b.applyAll (a ++ c) = (b.applyAll a).applyAll c := by
  simp [JobBuilder.applyAll]

private theorem build_tags {x : ExecutorConsts} {cd : Codec D} {cm : Codec M} {b : JobBuilder D M}
    {e : EnqueuableJob} (h : b.build x cd cm = some e) : e.tags = b.tags := by
  unfold JobBuilder.build at h
  split at h
  · simp at h
  · split at h
    · simp at h
    · simp only [Option.some.injEq] at h; subst h; rfl

/-- **C35, tags.** The tags are those of the last `with_tags` followed by every tag
added after it; without `with_tags`, all tags added, in order. -/
theorem C35_builder_tags (x : ExecutorConsts) (cd : Codec D) (cm : Codec M) (now : Time)
    (calls : List (BuilderCall D M)) (e : EnqueuableJob)
    (h : ((JobBuilder.init now).applyAll calls).build x cd cm = some e) :
    ((∀ c ∈ calls, c.setsTags = false) → e.tags = calls.filterMap BuilderCall.tag?) ∧
    ∀ pre tags post, calls = pre ++ .withTags tags :: post → (∀ c ∈ post, c.setsTags = false) →
      e.tags = tags ++ post.filterMap BuilderCall.tag? := by
  rw [build_tags h]
  constructor
  · intro hc; rw [applyAll_tags _ _ hc]; simp [JobBuilder.init]
  · rintro pre tags post rfl hc
    rw [applyAll_append, show (BuilderCall.withTags tags :: post : List (BuilderCall D M))
      = [.withTags tags] ++ post from rfl, applyAll_append, applyAll_tags _ _ hc]
    simp [JobBuilder.applyAll, JobBuilder.apply]

/-- A lossless builder always enqueues something. -/
theorem C35_builder_total (x : ExecutorConsts) (cd : Codec D) (cm : Codec M) (hd : cd.Lossless)
    (hm : cm.Lossless) (b : JobBuilder D M) : ∃ e, b.build x cd cm = some e := by
  have enc : ∀ {α : Type} (c : Codec α), c.Lossless → ∀ o, ∃ v, c.encOption o = some v := by
    intro α c hc o
    cases o with
    | none => exact ⟨_, rfl⟩
    | some a => obtain ⟨v, h, -⟩ := hc a; exact ⟨v, h⟩
  obtain ⟨a, ha⟩ := enc cd hd b.data
  obtain ⟨c, hc⟩ := enc cm hm b.metadata
  exact ⟨_, by simp only [JobBuilder.build, ha, hc]; rfl⟩

/-- The executor of the examples. -/
def mailExecutor : ExecutorConsts := { name := "mail", maxAttempts := 5, criteria := none }

example : ((JobBuilder.init 9).applyAll [.withData "first", .addTag "lost", .withTags ["x", "y"],
      .withPriority 3, .scheduleIn 10 20, .withData "second", .addTag "z"]).build mailExecutor
      stringCodec unitCodec
    = some { executor := "mail", data := .str "second", metadata := .null, maxAttempts := 5,
             scheduledAt := 30, tags := ["x", "y", "z"], priority := 3, criteria := none } := by decide

/-! ## C36 -/

private theorem inserted_step {now : Time} {c : Conc} {a : Act} {id : Int} {e : EnqueuableJob}
    (h : (c.step now a).1 = .inserted id e) :
    (c.step now a).2.mem.jobs = c.mem.jobs ++ [e.intoJob now id] := by
  cases a with
  | start e => simp [Conc.step] at h
  | op o => simp [Conc.step] at h
  | advance i =>
    simp only [Conc.step] at h ⊢
    cases hp : c.calls[i]? with
    | none => rw [hp] at h; simp at h
    | some p =>
      simp only [hp] at h
      cases p with
      | start e =>
        simp only [Mem.advance] at h
        split at h
        · simp at h
        · split at h <;> simp at h
      | noMatch e => simp [Mem.advance] at h
      | allocated id' e' =>
        simp only [Mem.advance, Ev.inserted.injEq] at h
        simp [Mem.advance, h.1, h.2]
      | pushed id e => simp [Mem.advance] at h
      | matched job => rw [advance_matched_ev] at h; simp at h
      | done r => simp [Mem.advance] at h

/-- The first hand-out of a job carries exactly what was enqueued. -/
private theorem first_handout (paused : Bool) (as : List TAct)
    (hb : idsTaken ((fresh paused).trace as) ≤ 2 ^ 32)
    (pre mid post : List TEv) (e₁ e₂ : TEv) (id : Int) (e : EnqueuableJob) (x : String) (j : Job)
    (h : (fresh paused).trace as = pre ++ e₁ :: mid ++ e₂ :: post)
    (h₁ : e₁.ev = .inserted id e) (h₂ : e₂.ev = .op (.load x) (.job (some j))) (hid : j.id = id)
    (hmid : ∀ ev ∈ mid, ev.ev.handsOut id = false ∧ ev.ev.finishes id = false ∧ ev.ev.putsBack id = false) :
    j = (e.intoJob e₁.now id).job.markExecuting e₂.now := by
  have h' : (fresh paused).trace as = pre ++ e₁ :: (mid ++ e₂ :: post) := by simpa using h
  obtain ⟨as₁, a, as₂, -, -, he, htr, H, H', hb'⟩ := fresh_split h' (by simpa using hb)
  rw [he] at h₁
  simp only at h₁
  have hjobs := inserted_step h₁
  have hins : id ∈ insertedIds (pre ++ [e₁]) := by
    rw [insertedIds_append, he]; simp [insertedIds, h₁]
  obtain ⟨bs₁, rest, rfl, t1, t2⟩ := Conc.trace_split htr
  obtain ⟨b, bs₂, rfl, t3, t4⟩ := Conc.trace_cons t2
  have hP := (follow_job H' hins (fun j' => j' = (e.intoJob a.now id).job)
    (fun ev => ev.touches id = false) ?_ bs₁ ?_ ?_ ?_).2
  · rw [t3] at h₂
    obtain ⟨-, l, k, r, g1, -, -, -, g5, -⟩ := handout_cases h₂
    have hkid : k.job.id = id := by rw [← hid, g5]; rfl
    have := hP k (by rw [g1]; simp) hkid
    rw [g5, this, he, t3]
  · intro now ev j' hev hj hp
    rw [applyEv_of_not_touches (by rw [hj]; exact hev)]; exact hp
  · refine Nat.le_trans ?_ hb'
    rw [Conc.run_append]
    exact run_allocated_le _ _
  · rw [t1]; intro ev hev; simp [Ev.touches, hmid ev hev]
  · intro k hk hkid
    rw [hjobs] at hk
    rcases List.mem_append.mp hk with hk | hk
    · exfalso
      have h1 := H.mem_inserted hk
      rw [hkid] at h1
      exact H.not_waiting h1 (inserted_waiting h₁)
    · have : k = e.intoJob a.now id := by simpa using hk
      rw [this]

private theorem toU16?_nat {n : Nat} (h : n < 65536) : toU16? (n : Int) = some n := by
  have h' : 0 ≤ (n : Int) ∧ (n : Int) < 65536 := by omega
  simp only [toU16?, h', and_self, if_true, Int.toNat_natCast]

/-- The value a builder was given, or, if it was given none, the one `null` stands for in
that type (such as `()` or `None`). -/
def Supplied (c : Codec α) (given : Option α) (v : α) : Prop :=
  given = some v ∨ (given = none ∧ c.dec .null = some v)

theorem Supplied.enc {c : Codec α} (hc : c.Lossless) {o : Option α} {v : α} (h : Supplied c o v) :
    ∃ x, c.encOption o = some x ∧ c.dec x = some v := by
  rcases h with rfl | ⟨rfl, h⟩
  · exact hc v
  · exact ⟨.null, rfl, h⟩

/-- **C36, for all data and metadata that were set or can be read from `null`.** In every
history: if a builder's job was inserted and later handed out for the first time without
any by-id call or conflict in between, then the executor receives a job (decoding neither
fails nor panics) with equal data and metadata and the enqueued tags, priority,
max_attempts and schedule time, attempt 1, the returned id, no errors.
`max_attempts` and `priority` are 16-bit in the API. Missing: metadata left out although
its type cannot be read from `null`, see `C36_omitted_metadata_undecodable`. -/
theorem C36_received_partial (paused : Bool) (as : List TAct)
    (hb : idsTaken ((fresh paused).trace as) ≤ 2 ^ 32)
    (pre mid post : List TEv) (e₁ e₂ : TEv) (id : Int) (e : EnqueuableJob) (y : String) (j : Job)
    (h : (fresh paused).trace as = pre ++ e₁ :: mid ++ e₂ :: post)
    (h₁ : e₁.ev = .inserted id e) (h₂ : e₂.ev = .op (.load y) (.job (some j))) (hid : j.id = id)
    (hmid : ∀ ev ∈ mid, ev.ev.handsOut id = false ∧ ev.ev.finishes id = false ∧ ev.ev.putsBack id = false)
    (x : ExecutorConsts) (cd : Codec D) (cm : Codec M) (hd : cd.Lossless) (hm : cm.Lossless)
    (b : JobBuilder D M) (data : D) (metadata : M)
    (hdata : Supplied cd b.data data) (hmeta : Supplied cm b.metadata metadata)
    (hbuild : b.build x cd cm = some e) (hma : e.maxAttempts < 65536) (hpr : e.priority < 65536) :
    ∃ t, decodeJob cd cm j = .ok t ∧ t.id = id ∧ t.data = data ∧ t.metadata = metadata ∧
      t.executor = x.name ∧ t.tags = b.tags ∧ t.priority = b.priority ∧
      t.maxAttempts = b.maxAttempts.getD x.maxAttempts ∧
      t.scheduledAt = b.scheduledAt ∧ t.attempt = 1 ∧ t.errors = [] ∧ t.status = .executing := by
  have hj := first_handout paused as hb pre mid post e₁ e₂ id e y j h h₁ h₂ hid hmid
  obtain ⟨dv, hd1, hd2⟩ := hdata.enc hd
  obtain ⟨mv, hm1, hm2⟩ := hmeta.enc hm
  unfold JobBuilder.build at hbuild
  simp only [hd1, hm1, Option.some.injEq] at hbuild
  have e1 : cd.dec j.data = some data := by rw [hj, ← hbuild]; exact hd2
  have e2 : cm.dec j.metadata = some metadata := by rw [hj, ← hbuild]; exact hm2
  have e3 : toU16? j.attempt = some 1 := by rw [hj]; rfl
  have e4 : toU16? j.maxAttempts = some e.maxAttempts := by rw [hj]; exact toU16?_nat hma
  have e5 : toU16? j.priority = some e.priority := by rw [hj]; exact toU16?_nat hpr
  simp only [decodeJob, e1, e2, e3, e4, e5]
  refine ⟨_, rfl, hid, rfl, rfl, ?_, ?_, ?_, ?_, ?_, rfl, ?_, ?_⟩ <;> (first | rw [hj, ← hbuild] | rw [← hbuild]) <;> rfl

/-- A builder with all fields set, its job, and a history that inserts it and hands
it out. -/
def fullBuilder : JobBuilder String String :=
  (JobBuilder.init 0).applyAll [.withData "hello", .withMetadata "world", .withPriority 3, .addTag "a"]

def fullJob : EnqueuableJob where
  executor := "mail"
  data := .str "hello"
  metadata := .str "world"
  maxAttempts := 5
  scheduledAt := 0
  tags := ["a"]
  priority := 3
  criteria := none

example : fullBuilder.build mailExecutor stringCodec stringCodec = some fullJob ∧
    ((fresh.trace (enqSteps 0 0 fullJob ++ [call 4 (.load "mail")])).filterMap fun e => match e.ev with
      | .op (.load _) (.job (some j)) => (match decodeJob stringCodec stringCodec j with
        | .ok t => some (t.data, t.metadata, t.attempt, t.priority)
        | _ => none)
      | _ => none) = [("hello", "world", 1, 3)] := by decide

/-- Metadata left out, where `null` can be read. -/
example : ∃ e, ((JobBuilder.init 0).applyAll [.withData "hello"]).build mailExecutor stringCodec unitCodec = some e ∧
    Supplied unitCodec ((JobBuilder.init 0).applyAll [.withData "hello"] : JobBuilder String Unit).metadata () ∧
    ((fresh.trace (enqSteps 0 0 e ++ [call 4 (.load "mail")])).filterMap fun e => match e.ev with
      | .op (.load _) (.job (some j)) => (match decodeJob stringCodec unitCodec j with
        | .ok t => some (t.data, t.metadata, t.attempt, t.priority)
        | _ => none)
      | _ => none) = [("hello", (), 1, 0)] :=
  ⟨{ fullJob with metadata := .null, tags := [], priority := 0 }, by rfl, .inr ⟨rfl, rfl⟩, by decide⟩

/-- **C36 fails when metadata is omitted.** The documentation says metadata is always
optional, but a job enqueued without metadata is stored with metadata `null`; for
every metadata type that cannot be read from `null`, whatever is handed out for
that job cannot be decoded, so the executor never sees it. -/
theorem C36_omitted_metadata_undecodable (paused : Bool) (as : List TAct)
    (hb : idsTaken ((fresh paused).trace as) ≤ 2 ^ 32)
    (pre mid post : List TEv) (e₁ e₂ : TEv) (id : Int) (e : EnqueuableJob) (y : String) (j : Job)
    (h : (fresh paused).trace as = pre ++ e₁ :: mid ++ e₂ :: post)
    (h₁ : e₁.ev = .inserted id e) (h₂ : e₂.ev = .op (.load y) (.job (some j))) (hid : j.id = id)
    (hmid : ∀ ev ∈ mid, ev.ev.handsOut id = false ∧ ev.ev.finishes id = false ∧ ev.ev.putsBack id = false)
    (x : ExecutorConsts) (cd : Codec D) (cm : Codec M) (b : JobBuilder D M)
    (hmeta : b.metadata = none) (hnull : cm.dec .null = none)
    (hbuild : b.build x cd cm = some e) :
    decodeJob cd cm j = .err := by
  have hj := first_handout paused as hb pre mid post e₁ e₂ id e y j h h₁ h₂ hid hmid
  unfold JobBuilder.build at hbuild
  rw [hmeta] at hbuild
  simp only [Codec.encOption] at hbuild
  split at hbuild
  · simp at hbuild
  · simp only [Option.some.injEq] at hbuild
    subst hbuild
    subst hj
    simp only [Job.markExecuting, EnqueuableJob.intoJob, decodeJob, hnull]
    split <;> rfl

/-- **C36: exactly when the executor sees the job.** With types that survive serialisation,
at the first hand-out of a job nobody touched: the executor receives it if data and metadata
were each set or can be read from `null`, and otherwise it is not decodable. It is never a
panic. -/
theorem C36_exactly (paused : Bool) (as : List TAct)
    (hb : idsTaken ((fresh paused).trace as) ≤ 2 ^ 32)
    (pre mid post : List TEv) (e₁ e₂ : TEv) (id : Int) (e : EnqueuableJob) (y : String) (j : Job)
    (h : (fresh paused).trace as = pre ++ e₁ :: mid ++ e₂ :: post)
    (h₁ : e₁.ev = .inserted id e) (h₂ : e₂.ev = .op (.load y) (.job (some j))) (hid : j.id = id)
    (hmid : ∀ ev ∈ mid, ev.ev.handsOut id = false ∧ ev.ev.finishes id = false ∧ ev.ev.putsBack id = false)
    (x : ExecutorConsts) (cd : Codec D) (cm : Codec M) (hd : cd.Lossless) (hm : cm.Lossless)
    (b : JobBuilder D M) (hbuild : b.build x cd cm = some e) (hma : e.maxAttempts < 65536) (hpr : e.priority < 65536) :
    ((∃ t, decodeJob cd cm j = .ok t) ↔ (∃ v, Supplied cd b.data v) ∧ (∃ v, Supplied cm b.metadata v)) ∧
    ((¬ ∃ t, decodeJob cd cm j = .ok t) → decodeJob cd cm j = .err) := by
  have hnull : ∀ {α : Type} (c : Codec α) (o : Option α), (¬ ∃ v, Supplied c o v) → o = none ∧ c.dec .null = none := by
    intro α c o hn
    cases o with
    | some v => exact absurd ⟨v, .inl rfl⟩ hn
    | none =>
      refine ⟨rfl, ?_⟩
      cases hc : c.dec .null with
      | none => rfl
      | some v => exact absurd ⟨v, .inr ⟨rfl, hc⟩⟩ hn
  by_cases hdata : ∃ v, Supplied cd b.data v
  · by_cases hmeta : ∃ v, Supplied cm b.metadata v
    · obtain ⟨data, h1⟩ := hdata
      obtain ⟨metadata, h2⟩ := hmeta
      obtain ⟨t, ht, _⟩ := C36_received_partial paused as hb pre mid post e₁ e₂ id e y j h h₁ h₂ hid hmid x cd cm hd hm b
        data metadata h1 h2 hbuild hma hpr
      exact ⟨⟨fun _ => ⟨⟨_, h1⟩, _, h2⟩, fun _ => ⟨t, ht⟩⟩, fun hn => absurd ⟨t, ht⟩ hn⟩
    · have hn := hnull cm _ hmeta
      have herr := C36_omitted_metadata_undecodable paused as hb pre mid post e₁ e₂ id e y j h h₁ h₂ hid hmid x cd cm b
        hn.1 hn.2 hbuild
      exact ⟨⟨fun ⟨t, ht⟩ => (by rw [herr] at ht; cases ht), fun hh => absurd hh.2 hmeta⟩, fun _ => herr⟩
  · have hn := hnull cd _ hdata
    have hj := first_handout paused as hb pre mid post e₁ e₂ id e y j h h₁ h₂ hid hmid
    have herr : decodeJob cd cm j = .err := by
      unfold JobBuilder.build at hbuild
      rw [hn.1] at hbuild
      simp only [Codec.encOption] at hbuild
      split at hbuild
      · simp at hbuild
      · simp only [Option.some.injEq] at hbuild
        subst hbuild
        subst hj
        simp only [Job.markExecuting, EnqueuableJob.intoJob, decodeJob, hn.2]
    exact ⟨⟨fun ⟨t, ht⟩ => (by rw [herr] at ht; cases ht), fun hh => absurd hh.1 hdata⟩, fun _ => herr⟩

/-- Metadata of a type that cannot be read from `null`, left out. -/
example : (∃ v, Supplied stringCodec ((JobBuilder.init 0).applyAll [.withData "hello"] : JobBuilder String String).data v) ∧
    ¬ ∃ v, Supplied stringCodec ((JobBuilder.init 0).applyAll [.withData "hello"] : JobBuilder String String).metadata v :=
  ⟨⟨"hello", .inl rfl⟩, fun ⟨_, h⟩ => by rcases h with h | ⟨_, h⟩ <;> cases h⟩

/-- So the claim as stated is false: `String` metadata, left out. -/
theorem C36_violated :
    ¬ ∀ (cd cm : Codec String) (_ : cd.Lossless) (_ : cm.Lossless) (b : JobBuilder String String)
        (data : String) (e : EnqueuableJob) (now : Time) (id : Int),
      b.data = some data → b.build mailExecutor cd cm = some e →
      ∃ t, decodeJob cd cm ((e.intoJob now id).job.markExecuting now) = .ok t ∧ t.data = data := by
  intro h
  obtain ⟨t, ht, -⟩ := h stringCodec stringCodec stringCodec_lossless stringCodec_lossless
    ((JobBuilder.init 0).applyAll [.withData "hello"]) "hello"
    { fullJob with metadata := .null, tags := [], priority := 0 } 0 0 rfl rfl
  simp [decodeJob, fullJob, Job.markExecuting, EnqueuableJob.intoJob, stringCodec] at ht

/-! ## C37 -/

/-- **C37.** For every store and every stored job whose data and metadata were
produced by serialising values (of types that survive serialisation) and whose
counters fit 16 bits: reading it through the typed API gives a job, and passing
that job unchanged to `update_job` succeeds and leaves every stored job, in every
field, and the id counter as they were (provided ids are distinct). -/
theorem C37_write_back (cd : Codec D) (cm : Codec M) (hd : cd.Lossless) (hm : cm.Lossless)
    (m : Mem) (hn : (m.jobs.map fun k => k.job.id).Nodup) (k : KeyedJob) (hk : k ∈ m.jobs)
    (d : D) (md : M) (hdata : cd.enc d = some k.job.data) (hmeta : cm.enc md = some k.job.metadata)
    (ha : 0 ≤ k.job.attempt ∧ k.job.attempt < 65536)
    (hma : 0 ≤ k.job.maxAttempts ∧ k.job.maxAttempts < 65536)
    (hp : 0 ≤ k.job.priority ∧ k.job.priority < 65536) :
    ∃ t, decodeJob cd cm k.job = .ok t ∧ (updateJob cd cm t m).1 = some .unit ∧
      (updateJob cd cm t m).2.jobs = m.jobs ∧ (updateJob cd cm t m).2.allocated = m.allocated := by
  obtain ⟨dv, hd1, hd2⟩ := hd d
  obtain ⟨mv, hm1, hm2⟩ := hm md
  rw [hd1, Option.some.injEq] at hdata
  rw [hm1, Option.some.injEq] at hmeta
  subst hdata hmeta
  have hdec : ∃ t, decodeJob cd cm k.job = .ok t ∧ encodeJob cd cm t = some k.job := by
    simp only [decodeJob, hd2, hm2, toU16?]
    rw [if_pos ha, if_pos hma, if_pos hp]
    refine ⟨_, rfl, ?_⟩
    simp only [encodeJob, hd1, hm1]
    congr 1
    obtain ⟨⟨id, st, ex, da, me, at', ma, pr, ta, er, ia, sa, aa, ca, cna, dia⟩, key⟩ := k
    simp only at ha hma hp ⊢
    congr 1 <;> omega
  obtain ⟨t, ht, he⟩ := hdec
  refine ⟨t, ht, ?_⟩
  unfold updateJob
  simp only [he, Mem.update]
  rcases onJob_cases k.job.id (fun _ => k.job) true m with ⟨hne, -⟩ | ⟨l, k', r, h1, h2, h3, h4, h5, h6⟩
  · exact absurd rfl (hne k hk)
  · have hkk : k' = k := eq_of_id hn hk (by rw [h1]; simp) h3
    refine ⟨by rw [h4], ?_, h6⟩
    rw [h5, h1, hkk]

example : (match decodeJob stringCodec unitCodec (sampleJob 3) with
    | .ok t => (updateJob stringCodec unitCodec t (storeOf [sampleJob 2, sampleJob 3])).2
    | _ => {}) = storeOf [sampleJob 2, sampleJob 3] := by decide

/-! ## C52, through the typed API -/

/-- **C52, in-memory, through the typed API.** For every store and every job value of types
that survive serialisation whose id is stored: `update_job` succeeds, changes only the
(first) stored job with that id and not its uniqueness key, and reading that job then gives
exactly the value passed. -/
theorem C52_typed (cd : Codec D) (cm : Codec M) (hd : cd.Lossless) (hm : cm.Lossless) (m : Mem) (t : TJob D M)
    (h : ∃ k ∈ m.jobs, k.job.id = t.id) (ha : t.attempt < 65536) (hma : t.maxAttempts < 65536) (hp : t.priority < 65536) :
    (updateJob cd cm t m).1 = some .unit ∧
    ∃ (i : Nat) (k k' : KeyedJob), m.jobs[i]? = some k ∧ k.job.id = t.id ∧
      (updateJob cd cm t m).2.jobs = m.jobs.set i k' ∧ k'.key = k.key ∧ decodeJob cd cm k'.job = .ok t := by
  obtain ⟨dv, hd1, hd2⟩ := hd t.data
  obtain ⟨mv, hm1, hm2⟩ := hm t.metadata
  obtain ⟨j, he, hid, hdec⟩ : ∃ j, encodeJob cd cm t = some j ∧ j.id = t.id ∧ decodeJob cd cm j = .ok t := by
    obtain ⟨j, he⟩ : ∃ j, encodeJob cd cm t = some j := ⟨_, by simp only [encodeJob, hd1, hm1]; rfl⟩
    have hj := he
    simp only [encodeJob, hd1, hm1, Option.some.injEq] at hj
    have e1 : cd.dec j.data = some t.data := by rw [← hj]; exact hd2
    have e2 : cm.dec j.metadata = some t.metadata := by rw [← hj]; exact hm2
    have e3 : toU16? j.attempt = some t.attempt := by rw [← hj]; exact toU16?_nat ha
    have e4 : toU16? j.maxAttempts = some t.maxAttempts := by rw [← hj]; exact toU16?_nat hma
    have e5 : toU16? j.priority = some t.priority := by rw [← hj]; exact toU16?_nat hp
    refine ⟨j, he, by rw [← hj], ?_⟩
    simp only [decodeJob, e1, e2, e3, e4, e5]
    rw [← hj]
  unfold updateJob
  simp only [he, Mem.update]
  rcases onJob_cases j.id (fun _ => j) true m with ⟨hne, -⟩ | ⟨l, k', r, h1, h2, h3, h4, h5, h6⟩
  · obtain ⟨k, hk, hi⟩ := h; exact absurd (hi.trans hid.symm) (hne k hk)
  · refine ⟨by rw [h4], l.length, k', { k' with job := j }, by rw [h1]; simp, h3.trans hid, ?_, rfl, hdec⟩
    rw [h5, h1]; simp

example : ((updateJob stringCodec unitCodec
      ⟨3, .cancelled, "mail", "new", (), 2, 9, 4, ["a"], [], 0, 5, none, none, some 3, none⟩
      (storeOf [sampleJob 2, sampleJob 3])).2.jobs.map fun k => match decodeJob stringCodec unitCodec k.job with
        | .ok t => some (t.id, t.status, t.data, t.attempt)
        | _ => none) =
    [some (2, .scheduled, "hello", 0), some (3, .cancelled, "new", 2)] := by decide

end Rexecutor
