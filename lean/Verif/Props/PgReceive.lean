import Verif.Props.PgRecords
import Verif.Props.Builder

/-! # C81, C82: what is enqueued on Postgres is what is received -/

namespace Rexecutor

private theorem tmod_1000 (x : Int) : Int.tmod x 1000 = if 0 ≤ x then x % 1000 else - ((-x) % 1000) := by
  split
  · rename_i h; exact Int.tmod_eq_emod_of_nonneg h
  · rename_i h
    have : Int.tmod (-x) 1000 = (-x) % 1000 := Int.tmod_eq_emod_of_nonneg (by omega)
    rw [Int.neg_tmod] at this
    omega

private theorem pgTime_near (t : Time) : -1000 < pgTime t - t ∧ pgTime t - t < 1000 := by
  simp only [pgTime, tmod_1000]
  generalize epoch2000 = k
  simp only [Time] at *
  split <;> omega

private theorem pgTime_idem (t : Time) : pgTime (pgTime t) = pgTime t := by
  refine pgTime_whole ?_
  have : (1000 : Int) ∣ epoch2000 := by decide
  simp only [pgTime, tmod_1000]
  generalize epoch2000 = k at *
  simp only [Time] at *
  split <;> omega

/-! ## C81 -/

/-- **C81, times.** Postgres stores whole microseconds: a time from 2000 on is cut to the
microsecond, an earlier one is rounded up. -/
theorem C81_rounding (t : Time) :
    (946684800000000000 ≤ t → pgTime t = t / 1000 * 1000) ∧
    (t < 946684800000000000 → pgTime t = (t + 999) / 1000 * 1000) := by
  simp only [pgTime, tmod_1000, epoch2000, sec, Time] at *
  constructor <;> intro h <;> split <;> omega

example : pgTime 1700000000000001999 = 1700000000000001000 ∧ pgTime 900000000000001001 = 900000000000002000 := by decide

/-- After the schedule `as`, the action `a` is the call `enqueue(e)`, or the next step of such
a call with uniqueness criteria, begun earlier. -/
def StepOfEnqueue (hash : HashFn) (as : List TPgAct) (a : PgAct) (e : EnqueuableJob) : Prop :=
  a = .plain e ∨ ∃ bs b cs uc, as = bs ++ b :: cs ∧ b.act = .unique e uc ∧
    a = .advance (PgConc.run hash {} bs).sessions.length

/-- a session of a call `enqueue(e)`, or over -/
private def ofJob (e : EnqueuableJob) : Session → Prop
  | .unique e' _ _ => e' = e
  | .holding e' _ _ => e' = e
  | .missing e' _ _ => e' = e
  | .found e' _ _ _ => e' = e
  | .inserted e' _ _ => e' = e
  | .replacing e' _ _ _ => e' = e
  | .done _ => True
  | _ => False

private theorem ofJob_advance {e : EnqueuableJob} {hash : HashFn} {tie : Int → Nat} {now : Time} {c : PgConc} {s : Session}
    (h : ofJob e s) : ofJob e (c.advance hash tie now s).2.1 := by
  cases s <;> simp only [PgConc.advance] <;> first | exact h | exact h.elim | trivial | skip
  · split <;> exact h
  · split <;> exact h
  · split
    · trivial
    · exact h
  · split
    · split
      · split
        · trivial
        · split <;> exact h
      · trivial
    · trivial

private theorem ofJob_run {e : EnqueuableJob} {hash : HashFn} {k : Nat} (cs : List TPgAct) {c : PgConc} {s : Session}
    (hs : c.sessions[k]? = some s) (h : ofJob e s) : ∃ s', (c.run hash cs).sessions[k]? = some s' ∧ ofJob e s' := by
  induction cs generalizing c s with
  | nil => exact ⟨s, hs, h⟩
  | cons a cs ih =>
    have hlt : k < (c.step hash a.tie a.now a.act).2.sessions.length :=
      Nat.lt_of_lt_of_le (List.getElem?_eq_some_iff.mp hs).1 sessions_length_mono
    obtain ⟨s', hs'⟩ : ∃ s', (c.step hash a.tie a.now a.act).2.sessions[k]? = some s' := ⟨_, List.getElem?_eq_getElem hlt⟩
    refine ih hs' ?_
    rcases session_at hs hs' with rfl | ⟨-, rfl⟩ | rfl
    · exact h
    · exact ofJob_advance h
    · trivial

/-- The row inserted by a step of an enqueue. -/
private theorem inserted_row {hash : HashFn} {as : List TPgAct} {a : TPgAct} {e : EnqueuableJob} {row : Row} {uc : Option Criteria}
    (hstep : StepOfEnqueue hash as a.act e)
    (hev : ((PgConc.run hash {} as).step hash a.tie a.now a.act).1 = .inserted row uc) :
    ∃ t key, row = e.toRow t row.id key := by
  rcases hstep with h | ⟨bs, b, cs, uc', rfl, hb, h⟩
  · rcases inserted_from hev with ⟨e', uc', rfl, hm⟩ | ⟨e', h', -, -, hrow, -⟩
    · rw [h] at hev
      simp only [PgConc.step] at hev
      split at hev <;> cases hev
    · rw [h] at h'
      cases h'
      exact ⟨_, _, by rw [hrow]; rfl⟩
  · have hk : (PgConc.run hash {} (bs ++ [b])).sessions[(PgConc.run hash {} bs).sessions.length]? = some (.unique e uc' b.now) := by
      rw [PgConc.run_append]
      simp only [PgConc.run, hb, PgConc.step]
      simp
    obtain ⟨s', hs', hj⟩ := ofJob_run (hash := hash) cs hk (show ofJob e _ from rfl)
    rw [← PgConc.run_append, List.append_assoc] at hs'
    simp only [List.cons_append, List.nil_append] at hs'
    rw [h] at hev
    simp only [PgConc.step, hs'] at hev
    have I := pgHist hash (bs ++ b :: cs)
    cases s' with
    | inserted e' uc₁ row' =>
      simp only [PgConc.advance, PgEv.inserted.injEq] at hev
      obtain ⟨rfl, -⟩ := hev
      cases (show e' = e from hj)
      exact I.made _ _ _ (List.mem_of_getElem? hs')
    | handout x => exact hj.elim
    | looking x t snap => exact hj.elim
    | locked x t id => exact hj.elim
    | done r => simp [PgConc.advance] at hev
    | unique e uc t => simp only [PgConc.advance] at hev; split at hev <;> simp at hev
    | holding e uc t => simp only [PgConc.advance] at hev; split at hev <;> simp at hev
    | missing e uc t => simp only [PgConc.advance] at hev; split at hev <;> simp at hev
    | found e uc id st =>
      simp only [PgConc.advance] at hev
      split at hev
      · split at hev
        · split at hev
          · simp at hev
          · split at hev <;> simp at hev
        · simp at hev
      · simp at hev
    | replacing e uc rep id => simp [PgConc.advance] at hev

/-- What the call returns for the row it hands out. -/
private theorem handedOut_res {hash : HashFn} {tie : Int → Nat} {now : Time} {c : PgConc} {act : PgAct} {row' : Row} {res : Res}
    (g3 : (c.step hash tie now act).1 = .handedOut row' res) :
    res = match row'.decode with | none => Res.err .encodeDecode | some j => .job (some j) := by
  obtain ⟨k, hk⟩ : ∃ k, act = .advance k := by
    cases hb : act with
    | advance k => exact ⟨k, rfl⟩
    | handout x => rw [hb] at g3; simp [PgConc.step] at g3
    | unique e uc => rw [hb] at g3; simp [PgConc.step] at g3
    | abort i => rw [hb] at g3; simp only [PgConc.step] at g3; split at g3 <;> simp at g3
    | plain e => rw [hb] at g3; simp only [PgConc.step] at g3; split at g3 <;> simp at g3
    | stmt o => rw [hb] at g3; cases o <;> simp only [PgConc.step] at g3 <;> first | (split at g3 <;> cases g3) | cases g3
  rw [hk] at g3
  simp only [PgConc.step] at g3
  split at g3
  · simp at g3
  · rename_i s hi
    cases s with
    | locked x t id =>
      simp only [PgConc.advance] at g3
      split at g3
      · simp at g3
      · simp only [PgEv.handedOut.injEq] at g3
        obtain ⟨h1, h2⟩ := g3
        subst h1 h2
        rfl
    | replacing e uc rep id' => simp [PgConc.advance] at g3
    | inserted e uc' row' => simp [PgConc.advance] at g3
    | handout x => simp [PgConc.advance] at g3
    | done r => simp [PgConc.advance] at g3
    | looking x t snap => simp only [PgConc.advance] at g3; split at g3 <;> simp at g3
    | unique e uc t => simp only [PgConc.advance] at g3; split at g3 <;> simp at g3
    | holding e uc t => simp only [PgConc.advance] at g3; split at g3 <;> simp at g3
    | missing e uc t => simp only [PgConc.advance] at g3; split at g3 <;> simp at g3
    | found e uc id st =>
      simp only [PgConc.advance] at g3
      split at g3
      · split at g3
        · split at g3
          · simp at g3
          · split at g3 <;> simp at g3
        · simp at g3
      · simp at g3

/-- What is handed out the first time. -/
private theorem pg_first_handout {hash : HashFn} {as₁ as₂ : List TPgAct} {a : TPgAct} {e : EnqueuableJob} {row row' : Row}
    {uc : Option Criteria} {mid post : List TPgEv} {now : Time} {res : Res}
    (hstep : StepOfEnqueue hash as₁ a.act e)
    (hev : ((PgConc.run hash {} as₁).step hash a.tie a.now a.act).1 = .inserted row uc)
    (hout : (PgConc.run hash {} (as₁ ++ [a])).history hash as₂ = mid ++ ⟨now, .handedOut row' res⟩ :: post)
    (hid : row'.id = row.id) (hmid : ∀ ev ∈ mid, ev.ev.touches row.id = false) :
    ∃ t t' key, row' = (e.toRow t row.id key).markExecuting t' ∧
      res = match row'.decode with | none => Res.err .encodeDecode | some j => .job (some j) := by
  obtain ⟨t, key, hrow⟩ := inserted_row hstep hev
  have H := pgInv hash as₁
  have H' := H.step hash a.tie a.now a.act
  have I' := (pgHist hash as₁).step H hash a.tie a.now a.act
  have hrun : PgConc.run hash {} (as₁ ++ [a]) = ((PgConc.run hash {} as₁).step hash a.tie a.now a.act).2 := by
    rw [PgConc.run_append]; rfl
  rw [hrun] at hout
  obtain ⟨bs₁, b, bs₂, rfl, g1, g2, -⟩ := PgConc.history_split hout
  have hmem : row ∈ ((PgConc.run hash {} as₁).step hash a.tie a.now a.act).2.pg.rows := by
    have T := table_step H hash a.tie a.now a.act
    generalize ((PgConc.run hash {} as₁).step hash a.tie a.now a.act).2.pg.rows = rows' at *
    rw [hev] at T
    cases T with
    | same _ ht hi => have := hi row.id; simp [PgEv.inserts] at this
    | insert _ _ hn => simp
    | change _ id f hm ht hi hf => have := hi row.id; simp [PgEv.inserts] at this
  have hall := follow_row H' I' (I'.ids row hmem) (fun r => r = row) (fun ev => ev.touches row.id = false)
    (fun now ev r r' hid hm hok hr => by subst hr; exact hm.quiet hok) bs₁ (by rw [g1]; exact hmid)
    (fun r hr hid => row_unique H'.nodup hr hmem hid)
  have g3 := (congrArg TPgEv.ev g2).symm
  obtain ⟨r, hr, hrid, -, x, t', -, -, hr'⟩ := handedOut_mem (H'.run hash bs₁) g3
  have hrr := hall r hr (by rw [hrid, hid])
  refine ⟨t, t', key, by rw [hr', hrr]; exact congrArg _ hrow, ?_⟩
  exact handedOut_res g3

private theorem toU16?_nat {n : Nat} (h : n < 65536) : toU16? (n : Int) = some n := by
  have h' : 0 ≤ (n : Int) ∧ (n : Int) < 65536 := by omega
  simp only [toU16?, h', and_self, if_true, Int.toNat_natCast]

/-- **C81, for all data and metadata that were set or can be read from `null`.** In every history of the database, with any
number of nodes: if a builder's job was inserted, with or without uniqueness criteria, and
later handed out for the first time without any by-id call or replacement in between, then
the stream yields a job which the executor receives (decoding neither fails nor panics) with
equal data and metadata and the enqueued tags, priority and max_attempts, attempt 1, the id
of the inserted row and no errors. The schedule time is the one asked for if that is in
whole microseconds, and otherwise less than a microsecond away. Missing: metadata left out
although its type cannot be read from `null`, see `C81_omitted_metadata_undecodable`. -/
theorem C81_received_partial (hash : HashFn) (as₁ as₂ : List TPgAct) (a : TPgAct) (e : EnqueuableJob) (row row' : Row)
    (uc : Option Criteria) (mid post : List TPgEv) (now : Time) (res : Res)
    (hstep : StepOfEnqueue hash as₁ a.act e)
    (hev : ((PgConc.run hash {} as₁).step hash a.tie a.now a.act).1 = .inserted row uc)
    (hout : (PgConc.run hash {} (as₁ ++ [a])).history hash as₂ = mid ++ ⟨now, .handedOut row' res⟩ :: post)
    (hid : row'.id = row.id) (hmid : ∀ ev ∈ mid, ev.ev.touches row.id = false)
    (x : ExecutorConsts) (cd : Codec D) (cm : Codec M) (hd : cd.Lossless) (hm : cm.Lossless)
    (b : JobBuilder D M) (data : D) (metadata : M)
    (hdata : Supplied cd b.data data) (hmeta : Supplied cm b.metadata metadata)
    (hbuild : b.build x cd cm = some e) (hma : e.maxAttempts < 65536) (hpr : e.priority < 65536) :
    ∃ j t, res = .job (some j) ∧ decodeJob cd cm j = .ok t ∧ t.id = row.id ∧ t.data = data ∧ t.metadata = metadata ∧
      t.executor = x.name ∧ t.tags = b.tags ∧ t.priority = b.priority ∧
      t.maxAttempts = b.maxAttempts.getD x.maxAttempts ∧
      (1000 ∣ b.scheduledAt → t.scheduledAt = b.scheduledAt) ∧
      -1000 < t.scheduledAt - b.scheduledAt ∧ t.scheduledAt - b.scheduledAt < 1000 ∧
      t.attempt = 1 ∧ t.errors = [] ∧ t.status = .executing := by
  obtain ⟨t₀, t₁, key, hrow', hres⟩ := pg_first_handout hstep hev hout hid hmid
  obtain ⟨dv, hd1, hd2⟩ := hdata.enc hd
  obtain ⟨mv, hm1, hm2⟩ := hmeta.enc hm
  unfold JobBuilder.build at hbuild
  simp only [hd1, hm1, Option.some.injEq] at hbuild
  obtain ⟨j, hj, hdec⟩ : ∃ j : Job, j = (⟨row.id, .executing, e.executor, e.data, e.metadata, 1, e.maxAttempts, e.priority,
      e.tags, [], pgTime t₀, pgTime e.scheduledAt, some (pgTime t₁), none, none, none⟩ : Job) ∧ row'.decode = some j := by
    rw [hrow']; exact ⟨_, rfl, rfl⟩
  rw [hdec] at hres
  have hsched : b.scheduledAt = e.scheduledAt := by rw [← hbuild]
  have e1 : cd.dec j.data = some data := by rw [hj, ← hbuild]; exact hd2
  have e2 : cm.dec j.metadata = some metadata := by rw [hj, ← hbuild]; exact hm2
  have e3 : toU16? j.attempt = some 1 := by rw [hj]; rfl
  have e4 : toU16? j.maxAttempts = some e.maxAttempts := by rw [hj]; exact toU16?_nat hma
  have e5 : toU16? j.priority = some e.priority := by rw [hj]; exact toU16?_nat hpr
  have e6 : j.scheduledAt = pgTime b.scheduledAt := by rw [hj, hsched]
  refine ⟨j, ?_⟩
  simp only [decodeJob, e1, e2, e3, e4, e5]
  refine ⟨_, hres, rfl, ?_, rfl, rfl, ?_, ?_, ?_, ?_, ?_, ?_, ?_, rfl, ?_, ?_⟩
  · rw [hj]
  · rw [hj, ← hbuild]
  · rw [hj, ← hbuild]
  · rw [← hbuild]
  · rw [← hbuild]
  · intro hw; exact e6.trans (pgTime_whole hw)
  · have := (pgTime_near b.scheduledAt).1
    rw [← e6] at this; exact this
  · have := (pgTime_near b.scheduledAt).2
    rw [← e6] at this; exact this
  · rw [hj]
  · rw [hj]

/-- The job of `fullBuilder`, enqueued with uniqueness criteria, is inserted by the last step
of the call, and then handed out. -/
def receiveHistory : List TPgAct :=
  [pgAct 5000 (.plain sampleEnq),
    pgAct 5000 (.unique fullJob { key := none, executor := true, duration := none, statuses := [.complete], onConflict := .doNothing }),
    pgAct 5000 (.advance 0), pgAct 5000 (.advance 0), pgAct 5000 (.advance 0), pgAct 5000 (.advance 0),
    pgAct 6000 (.handout "mail"), pgAct 6000 (.advance 1), pgAct 6000 (.advance 1), pgAct 6000 (.advance 1),
    pgAct 6000 (.handout "mail"), pgAct 6000 (.advance 2), pgAct 6000 (.advance 2), pgAct 6000 (.advance 2)]

example : fullBuilder.build mailExecutor stringCodec stringCodec = some fullJob ∧
    (PgConc.run sampleHash {} (receiveHistory.take 1)).sessions.length = 0 ∧
    ((PgConc.history sampleHash {} receiveHistory).map fun e => (e.ev.inserts 2, e.ev.touches 2)) =
      [(false, false), (false, false), (false, false), (false, false), (false, false), (true, false), (false, false),
        (false, false), (false, false), (false, false), (false, false), (false, false), (false, false), (false, true)] ∧
    ((PgConc.history sampleHash {} receiveHistory).filterMap fun e => match e.ev with
      | .handedOut _ (.job (some j)) => (match decodeJob stringCodec stringCodec j with
        | .ok t => some (t.id, t.data, t.metadata, t.attempt, t.priority)
        | _ => none)
      | _ => none) = [(2, "hello", "world", 1, 3)] := by decide

/-- **C81 fails when metadata is omitted**, as in memory: a job enqueued without metadata is
stored with metadata `null`; for every metadata type that cannot be read from `null`, what
the stream yields for that job cannot be decoded, so the executor never sees it. -/
theorem C81_omitted_metadata_undecodable (hash : HashFn) (as₁ as₂ : List TPgAct) (a : TPgAct) (e : EnqueuableJob) (row row' : Row)
    (uc : Option Criteria) (mid post : List TPgEv) (now : Time) (res : Res)
    (hstep : StepOfEnqueue hash as₁ a.act e)
    (hev : ((PgConc.run hash {} as₁).step hash a.tie a.now a.act).1 = .inserted row uc)
    (hout : (PgConc.run hash {} (as₁ ++ [a])).history hash as₂ = mid ++ ⟨now, .handedOut row' res⟩ :: post)
    (hid : row'.id = row.id) (hmid : ∀ ev ∈ mid, ev.ev.touches row.id = false)
    (x : ExecutorConsts) (cd : Codec D) (cm : Codec M) (b : JobBuilder D M)
    (hmeta : b.metadata = none) (hnull : cm.dec .null = none)
    (hbuild : b.build x cd cm = some e) :
    ∃ j, res = .job (some j) ∧ decodeJob cd cm j = .err := by
  obtain ⟨t₀, t₁, key, hrow', hres⟩ := pg_first_handout hstep hev hout hid hmid
  unfold JobBuilder.build at hbuild
  rw [hmeta] at hbuild
  simp only [Codec.encOption] at hbuild
  split at hbuild
  · simp at hbuild
  · simp only [Option.some.injEq] at hbuild
    subst hbuild
    rw [hrow'] at hres
    refine ⟨_, hres, ?_⟩
    simp only [Row.markExecuting, EnqueuableJob.toRow, decodeJob, hnull]
    split <;> rfl

/-- **C81: exactly when the executor sees the job**, as in memory: if data and metadata were
each set or can be read from `null`; otherwise what is handed out is not decodable. It is
never a panic. -/
theorem C81_exactly (hash : HashFn) (as₁ as₂ : List TPgAct) (a : TPgAct) (e : EnqueuableJob) (row row' : Row)
    (uc : Option Criteria) (mid post : List TPgEv) (now : Time) (res : Res)
    (hstep : StepOfEnqueue hash as₁ a.act e)
    (hev : ((PgConc.run hash {} as₁).step hash a.tie a.now a.act).1 = .inserted row uc)
    (hout : (PgConc.run hash {} (as₁ ++ [a])).history hash as₂ = mid ++ ⟨now, .handedOut row' res⟩ :: post)
    (hid : row'.id = row.id) (hmid : ∀ ev ∈ mid, ev.ev.touches row.id = false)
    (x : ExecutorConsts) (cd : Codec D) (cm : Codec M) (hd : cd.Lossless) (hm : cm.Lossless)
    (b : JobBuilder D M) (hbuild : b.build x cd cm = some e) (hma : e.maxAttempts < 65536) (hpr : e.priority < 65536) :
    ∃ j, res = .job (some j) ∧
      ((∃ t, decodeJob cd cm j = .ok t) ↔ (∃ v, Supplied cd b.data v) ∧ (∃ v, Supplied cm b.metadata v)) ∧
      ((¬ ∃ t, decodeJob cd cm j = .ok t) → decodeJob cd cm j = .err) := by
  have hnull : ∀ {α : Type} (c : Codec α) (o : Option α), (¬ ∃ v, Supplied c o v) → o = none ∧ c.dec .null = none := by
    intro α c o hn
    cases o with
    | some v => exact absurd ⟨v, .inl rfl⟩ hn
    | none =>
      refine ⟨rfl, ?_⟩
      cases hc : c.dec .null with
      | none => rfl
      | some v => exact absurd ⟨v, .inr ⟨rfl, hc⟩⟩ hn
  by_cases hdata : ∃ v, Supplied cd b.data v
  · by_cases hmeta : ∃ v, Supplied cm b.metadata v
    · obtain ⟨data, h1⟩ := hdata
      obtain ⟨metadata, h2⟩ := hmeta
      obtain ⟨j, t, hres, ht, _⟩ := C81_received_partial hash as₁ as₂ a e row row' uc mid post now res hstep hev hout hid hmid
        x cd cm hd hm b data metadata h1 h2 hbuild hma hpr
      exact ⟨j, hres, ⟨fun _ => ⟨⟨_, h1⟩, _, h2⟩, fun _ => ⟨t, ht⟩⟩, fun hn => absurd ⟨t, ht⟩ hn⟩
    · have hn := hnull cm _ hmeta
      obtain ⟨j, hres, herr⟩ := C81_omitted_metadata_undecodable hash as₁ as₂ a e row row' uc mid post now res hstep hev hout
        hid hmid x cd cm b hn.1 hn.2 hbuild
      exact ⟨j, hres, ⟨fun ⟨t, ht⟩ => (by rw [herr] at ht; cases ht), fun hh => absurd hh.2 hmeta⟩, fun _ => herr⟩
  · have hn := hnull cd _ hdata
    obtain ⟨t₀, t₁, key, hrow', hres⟩ := pg_first_handout hstep hev hout hid hmid
    unfold JobBuilder.build at hbuild
    rw [hn.1] at hbuild
    simp only [Codec.encOption] at hbuild
    split at hbuild
    · simp at hbuild
    · simp only [Option.some.injEq] at hbuild
      subst hbuild
      rw [hrow'] at hres
      refine ⟨_, hres, ?_⟩
      simp only [Row.markExecuting, EnqueuableJob.toRow, decodeJob, hn.2]
      exact ⟨⟨fun ⟨t, ht⟩ => (by cases ht), fun hh => absurd hh.1 hdata⟩, fun _ => trivial⟩

/-- **C81 violated.** `String` metadata, left out: the job is inserted and handed out, and
the executor cannot read it. -/
theorem C81_violated :
    ∃ e, ((JobBuilder.init 0).applyAll [.withData "hello"]).build mailExecutor stringCodec stringCodec = some e ∧
      ∃ row j, (PgConc.history sampleHash {} [pgAct 5000 (.plain e), pgAct 6000 (.handout "mail"), pgAct 6000 (.advance 0),
          pgAct 6000 (.advance 0), pgAct 6000 (.advance 0)]).map TPgEv.ev =
        [.inserted row none, .internal, .internal, .internal, .handedOut (row.markExecuting 6000) (.job (some j))] ∧
        decodeJob stringCodec stringCodec j = .err :=
  ⟨{ fullJob with metadata := .null, tags := [], priority := 0 }, rfl,
    EnqueuableJob.toRow 5000 { fullJob with metadata := .null, tags := [], priority := 0 } 1 none,
    ⟨1, .executing, "mail", .str "hello", .null, 1, 5, 0, [], [], 5000, 0, some 6000, none, none, none⟩, by rfl, by decide⟩

/-! ## C82 -/

/-- **C82.** In every state of the database: take a stored job whose errors can be read,
whose data and metadata were produced by serialising values (of types that survive
serialisation) and whose counters fit 16 bits. Reading it through the typed API gives a job,
and writing that job back unchanged with `update_job`, when nobody has locked the row,
succeeds and leaves the whole table as it was. -/
theorem C82_write_back (hash : HashFn) (as : List TPgAct) (cd : Codec D) (cm : Codec M) (hd : cd.Lossless) (hm : cm.Lossless)
    (r : Row) (hr : r ∈ (PgConc.run hash {} as).pg.rows) (j : Job) (hj : r.decode = some j)
    (d : D) (md : M) (hdata : cd.enc d = some r.data) (hmeta : cm.enc md = some r.metadata)
    (ha : 0 ≤ r.attempt ∧ r.attempt < 65536) (hma : 0 ≤ r.maxAttempts ∧ r.maxAttempts < 65536)
    (hp : 0 ≤ r.priority ∧ r.priority < 65536)
    (hlock : (PgConc.run hash {} as).rowLocked r.id = false) (tie : Int → Nat) (now : Time) :
    ∃ t j', decodeJob cd cm j = .ok t ∧ encodeJob cd cm t = some j' ∧
      (PgConc.run hash {} as).step hash tie now (.stmt (.update j')) = (.stmt (.update j') .unit, PgConc.run hash {} as) := by
  have hsch : pgTime r.scheduledAt = r.scheduledAt := by
    refine row_induction (hash := hash) (fun _ r => pgTime r.scheduledAt = r.scheduledAt) ?_ ?_ ?_ as r hr
    · intro h e t id key _; exact pgTime_idem _
    · intro h row uc now hp; exact hp
    · intro h now ev r r' _ hm hp
      cases hm with
      | keep ht e => rw [e]; exact hp
      | handout x t res he hr e => rw [e]; exact hp
      | replaced rep enq he e =>
        rw [e]; simp only [Row.replace]; split
        · exact pgTime_idem _
        · exact hp
      | complete he e => rw [e]; exact hp
      | retryable next err he e => rw [e]; exact pgTime_idem _
      | discarded err he e => rw [e]; exact hp
      | cancelled err he e => rw [e]; exact hp
      | snoozed next he e => rw [e]; exact pgTime_idem _
      | rerun he e => rw [e]; exact pgTime_idem _
      | update job hid he e => rw [e]; exact pgTime_idem _
  have hn := (pgInv hash as).nodup
  obtain ⟨dv, hd1, hd2⟩ := hd d
  obtain ⟨mv, hm1, hm2⟩ := hm md
  rw [hd1, Option.some.injEq] at hdata
  rw [hm1, Option.some.injEq] at hmeta
  have hdec : ∃ t, decodeJob cd cm j = .ok t ∧ encodeJob cd cm t = some j := by
    unfold Row.decode at hj
    split at hj
    · cases hj
    · cases hj
      simp only [decodeJob, ← hdata, ← hmeta, hd2, hm2, toU16?]
      rw [if_pos ha, if_pos hma, if_pos hp]
      refine ⟨_, rfl, ?_⟩
      simp only [encodeJob, hd1, hm1]
      congr 1
      congr 1 <;> omega
  obtain ⟨t, ht, he⟩ := hdec
  refine ⟨t, j, ht, he, ?_⟩
  have hjid : j.id = r.id := by
    unfold Row.decode at hj
    split at hj <;> cases hj
    rfl
  have hupd : Row.update j r = r := by
    unfold Row.decode at hj
    split at hj
    · cases hj
    · cases hj
      simp only [Row.update, hsch]
  simp only [PgConc.step, Op.needs, List.any_cons, List.any_nil, Bool.or_false, hjid, hlock, Bool.false_eq_true, if_false, Pg.step]
  generalize PgConc.run hash {} as = c at *
  rcases onRow_cases r.id (Row.update j) c.pg hn with ⟨h1, -⟩ | ⟨-, h2⟩
  · exact absurd (mem_rowIds.mpr ⟨r, hr, rfl⟩) h1
  · have hsame : (updateRows r.id (Row.update j) c.pg.rows).1 = c.pg.rows := by
      simp only [updateRows]
      conv => rhs; rw [← List.map_id c.pg.rows]
      refine List.map_congr_left ?_
      intro q hq
      split
      · rename_i hqid
        have : q = r := row_unique hn hq hr hqid
        rw [this, hupd]; rfl
      · rfl
    rw [h2, hsame]

example : (match (PgConc.run sampleHash {} snoozeHistory).pg.rows.map Row.decode with
    | [some j] => (match decodeJob stringCodec unitCodec j with
      | .ok t => (match encodeJob stringCodec unitCodec t with
        | some j' => decide (((PgConc.run sampleHash {} snoozeHistory).step sampleHash (fun _ => 0) 99000 (.stmt (.update j'))).2 =
            PgConc.run sampleHash {} snoozeHistory)
        | none => false)
      | _ => false)
    | _ => false) = true := by decide

end Rexecutor
