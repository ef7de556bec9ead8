import Verif.Lemmas.PgRow
import Verif.Lemmas.Track
import Verif.Spec.PgSys

/-! Runners on Postgres: who has which job. -/

namespace Rexecutor

theorem PgSys.run_append (hash : HashFn) (defs : List Runner) (s : PgSys) (as bs : List TPSAct) :
    s.run hash defs (as ++ bs) = (s.run hash defs as).run hash defs bs := by
  induction as generalizing s with
  | nil => rfl
  | cons a as ih => simp only [List.cons_append, PgSys.run, ih]

theorem PgSys.trace_append (hash : HashFn) (defs : List Runner) (s : PgSys) (as bs : List TPSAct) :
    s.trace hash defs (as ++ bs) = s.trace hash defs as ++ (s.run hash defs as).trace hash defs bs := by
  induction as generalizing s with
  | nil => rfl
  | cons a as ih => simp only [List.cons_append, PgSys.trace, PgSys.run, ih]

theorem dbHistory_append (h h' : List TPSEv) : dbHistory (h ++ h') = dbHistory h ++ dbHistory h' := by
  simp [dbHistory]

theorem db_none {h : List TPSEv} {now : Time} {ev : PSEv} (hb : ev.back = none) :
    dbHistory (h ++ [⟨now, ev⟩]) = dbHistory h := by
  simp [dbHistory, hb]

theorem db_some {h : List TPSEv} {now : Time} {ev : PSEv} {b : PgEv} (hb : ev.back = some b) :
    dbHistory (h ++ [⟨now, ev⟩]) = dbHistory h ++ [⟨now, b⟩] := by
  simp [dbHistory, hb]

/-- What a step of the system does, seen from the database. -/
theorem psys_back (hash : HashFn) (defs : List Runner) (tie : Int → Nat) (now : Time) (s : PgSys) (a : PSAct) :
    ((s.step hash defs tie now a).1.back = none ∧ (s.step hash defs tie now a).2.conc = s.conc) ∨
    ∃ b, (s.step hash defs tie now a).1.back = some (s.conc.step hash tie now b).1 ∧
      (s.step hash defs tie now a).2.conc = (s.conc.step hash tie now b).2 := by
  cases a with
  | db b => exact .inr ⟨b, rfl, rfl⟩
  | pull r =>
    simp only [PgSys.step]
    split
    · rename_i d _ _ _
      split
      · exact .inr ⟨.handout d.name, rfl, rfl⟩
      · exact .inl ⟨rfl, rfl⟩
    · exact .inl ⟨rfl, rfl⟩
  | take r =>
    simp only [PgSys.step]
    split
    · split
      · exact .inl ⟨rfl, rfl⟩
      · exact .inl ⟨rfl, rfl⟩
      · exact .inl ⟨rfl, rfl⟩
    · exact .inl ⟨rfl, rfl⟩
  | finish r i b =>
    simp only [PgSys.step]
    split
    · split
      · split
        · exact .inl ⟨rfl, rfl⟩
        · split <;> exact .inl ⟨rfl, rfl⟩
      · exact .inl ⟨rfl, rfl⟩
    · exact .inl ⟨rfl, rfl⟩
  | report r i =>
    simp only [PgSys.step]
    split
    · split
      · rename_i t o _
        split
        · exact .inl ⟨rfl, rfl⟩
        · rename_i ev c _ he
          exact .inr ⟨.stmt o, by rw [he]; rfl, by rw [he]⟩
      · exact .inl ⟨rfl, rfl⟩
    · exact .inl ⟨rfl, rfl⟩
  | lose r i =>
    simp only [PgSys.step]
    split
    · split <;> exact .inl ⟨rfl, rfl⟩
    · exact .inl ⟨rfl, rfl⟩
  | stop r => simp only [PgSys.step]; split <;> exact .inl ⟨rfl, rfl⟩
  | drop r => simp only [PgSys.step]; split <;> exact .inl ⟨rfl, rfl⟩
  | kill r => simp only [PgSys.step]; split <;> exact .inl ⟨rfl, rfl⟩

/-- The database of the system after a schedule is the database alone after some schedule. -/
theorem psys_schedule (hash : HashFn) (defs : List Runner) (as : List TPSAct) :
    ∃ bs, ((PgSys.init defs).run hash defs as).conc = PgConc.run hash {} bs ∧
      dbHistory ((PgSys.init defs).trace hash defs as) = PgConc.history hash {} bs := by
  induction as using snoc_induction with
  | nil => exact ⟨[], rfl, rfl⟩
  | snoc as a ih =>
    obtain ⟨bs, h1, h2⟩ := ih
    rw [PgSys.run_append, PgSys.trace_append]
    simp only [PgSys.run, PgSys.trace]
    rcases psys_back hash defs a.tie a.now ((PgSys.init defs).run hash defs as) a.act with ⟨hb, hc⟩ | ⟨b, hb, hc⟩
    · exact ⟨bs, by rw [hc, h1], by rw [db_none hb, h2]⟩
    · refine ⟨bs ++ [⟨a.now, a.tie, b⟩], ?_, ?_⟩
      · rw [hc, PgConc.run_append, h1]; rfl
      · rw [db_some hb, PgConc.history_append, h1, h2]; rfl

/-! ## Who has which job -/

/-- A job in the hands of a runner: received by its stream, or in flight. -/
inductive Carrier where
  | loaded (j : Job)
  | flight (f : Flight)

def Carrier.id : Carrier → Int
  | .loaded j => j.id
  | .flight f => f.task.id

def Carrier.final : Carrier → Bool
  | .loaded j => decide (j.attempt = j.maxAttempts)
  | .flight f => f.task.isFinal

/-- What a runner has in its stream (`none`) or in one of its places. -/
def PgRunner.slot (c : PgConc) (rs : PgRunner) : Option Nat → Option Carrier
  | none => match rs.loading.bind fun k => c.sessions[k]? with
    | some (.done (.job (some j))) => some (.loaded j)
    | _ => none
  | some i => match rs.flights[i]? with
    | some (some f) => some (.flight f)
    | _ => none

def PgSys.carrier (s : PgSys) (r : Nat) (x : Option Nat) : Option Carrier :=
  s.runners[r]?.bind fun rs => rs.slot s.conc x

theorem slot_loaded {c : PgConc} {rs : PgRunner} {k : Nat} {j : Job} (hl : rs.loading = some k)
    (hs : c.sessions[k]? = some (.done (.job (some j)))) : rs.slot c none = some (.loaded j) := by
  simp [PgRunner.slot, hl, hs]

theorem slot_loaded_inv {c : PgConc} {rs : PgRunner} {d : Carrier} (h : rs.slot c none = some d) :
    ∃ k j, rs.loading = some k ∧ c.sessions[k]? = some (.done (.job (some j))) ∧ d = .loaded j := by
  simp only [PgRunner.slot] at h
  split at h
  · rename_i j hj
    obtain ⟨k, h1, h2⟩ := Option.bind_eq_some_iff.mp hj
    exact ⟨k, j, h1, h2, (Option.some.inj h).symm⟩
  · cases h

theorem slot_flight_inv {c : PgConc} {rs : PgRunner} {i : Nat} {d : Carrier} (h : rs.slot c (some i) = some d) :
    ∃ f, rs.flights[i]? = some (some f) ∧ d = .flight f := by
  simp only [PgRunner.slot] at h
  split at h
  · rename_i f hf; exact ⟨f, hf, (Option.some.inj h).symm⟩
  · cases h

theorem carrier_of {s : PgSys} {r : Nat} {rs : PgRunner} (h : s.runners[r]? = some rs) (x : Option Nat) :
    s.carrier r x = rs.slot s.conc x := by
  simp [PgSys.carrier, h]

theorem carrier_set {s : PgSys} {r : Nat} {rs rs' : PgRunner} (h : s.runners[r]? = some rs) (c : PgConc) (q : Nat) (x : Option Nat) :
    PgSys.carrier ⟨c, s.runners.set r rs'⟩ q x =
      if q = r then rs'.slot c x else PgSys.carrier ⟨c, s.runners⟩ q x := by
  have hlt : r < s.runners.length := (List.getElem?_eq_some_iff.mp h).1
  simp only [PgSys.carrier, List.getElem?_set]
  by_cases hq : q = r
  · subst hq; simp [hlt]
  · simp [hq, Ne.symm hq]

theorem slot_crash (c : PgConc) (rs : PgRunner) (x : Option Nat) : rs.crash.slot c x = none := by
  cases x <;> simp [PgRunner.slot, PgRunner.crash]

/-- `slot` after putting something into a place. -/
theorem slot_set {c : PgConc} {rs : PgRunner} {i : Nat} {f : Option Flight} {v : Option Flight} (h : rs.flights[i]? = some v)
    (x : Option Nat) :
    PgRunner.slot c { rs with flights := rs.flights.set i f } x =
      if x = some i then f.map Carrier.flight else rs.slot c x := by
  have hlt : i < rs.flights.length := (List.getElem?_eq_some_iff.mp h).1
  cases x with
  | none => simp [PgRunner.slot]
  | some j =>
    simp only [PgRunner.slot, List.getElem?_set, Option.some.injEq]
    by_cases hj : j = i
    · subst hj; simp only [if_true, hlt]; cases f <;> rfl
    · simp [hj, Ne.symm hj]

/-- Every stream waits for a session of its own. -/
structure PgOwn (s : PgSys) : Prop where
  lt : ∀ (r : Nat) (rs : PgRunner) (k : Nat), s.runners[r]? = some rs → rs.loading = some k → k < s.conc.sessions.length
  inj : ∀ (r r' : Nat) (rs rs' : PgRunner) (k : Nat), s.runners[r]? = some rs → s.runners[r']? = some rs' → rs.loading = some k →
    rs'.loading = some k → r = r'

theorem PgOwn.init (defs : List Runner) : PgOwn (PgSys.init defs) := by
  have : ∀ (r : Nat) (rs : PgRunner), (PgSys.init defs).runners[r]? = some rs → rs.loading = none := by
    intro r rs h
    have := List.mem_of_getElem? h
    simp only [PgSys.init, List.mem_map] at this
    obtain ⟨d, -, rfl⟩ := this
    rfl
  exact ⟨fun r rs k h hl => (by rw [this r rs h] at hl; cases hl), fun r r' rs rs' k h h' hl => (by rw [this r rs h] at hl; cases hl)⟩

/-- Keeping or dropping what the streams wait for keeps `PgOwn`. -/
private theorem own_keep {s : PgSys} (O : PgOwn s) {c : PgConc} (hl : s.conc.sessions.length ≤ c.sessions.length)
    {l : List PgRunner} (hk : ∀ (r : Nat) (rs : PgRunner) (k : Nat), l[r]? = some rs → rs.loading = some k →
      ∃ rs₀, s.runners[r]? = some rs₀ ∧ rs₀.loading = some k) : PgOwn ⟨c, l⟩ := by
  refine ⟨fun r rs k h1 h2 => ?_, fun r r' rs rs' k h1 h1' h2 h2' => ?_⟩
  · obtain ⟨rs₀, g1, g2⟩ := hk r rs k h1 h2
    exact Nat.lt_of_lt_of_le (O.lt r rs₀ k g1 g2) hl
  · obtain ⟨rs₀, g1, g2⟩ := hk r rs k h1 h2
    obtain ⟨rs₁, g3, g4⟩ := hk r' rs' k h1' h2'
    exact O.inj r r' rs₀ rs₁ k g1 g3 g2 g4

private theorem own_set {s : PgSys} {r : Nat} {rs rs' : PgRunner} (h : s.runners[r]? = some rs)
    (hl : rs'.loading = rs.loading ∨ rs'.loading = none) (q : Nat) (qs : PgRunner) (k : Nat)
    (h1 : (s.runners.set r rs')[q]? = some qs) (h2 : qs.loading = some k) :
    ∃ rs₀, s.runners[q]? = some rs₀ ∧ rs₀.loading = some k := by
  have hlt : r < s.runners.length := (List.getElem?_eq_some_iff.mp h).1
  rw [List.getElem?_set] at h1
  by_cases hq : r = q
  · subst hq
    rw [if_pos rfl, if_pos hlt, Option.some.injEq] at h1
    subst h1
    rcases hl with hl | hl
    · exact ⟨rs, h, by rw [← hl]; exact h2⟩
    · rw [hl] at h2; cases h2
  · rw [if_neg hq] at h1; exact ⟨qs, h1, h2⟩

theorem PgOwn.step {s : PgSys} (O : PgOwn s) (hash : HashFn) (defs : List Runner) (tie : Int → Nat) (now : Time) (a : PSAct) :
    PgOwn (s.step hash defs tie now a).2 := by
  have same : ∀ (r : Nat) (rs rs' : PgRunner), s.runners[r]? = some rs → (rs'.loading = rs.loading ∨ rs'.loading = none) →
      PgOwn ⟨s.conc, s.runners.set r rs'⟩ := fun r rs rs' h hl => own_keep O (Nat.le_refl _) (own_set h hl)
  cases a with
  | db b => exact own_keep O sessions_length_mono fun r rs k h1 h2 => ⟨rs, h1, h2⟩
  | pull r =>
    simp only [PgSys.step]
    split
    · rename_i d rs hd hr
      split
      · rename_i hc
        have hlt : r < s.runners.length := (List.getElem?_eq_some_iff.mp hr).1
        have hget : ∀ (q : Nat) (qs : PgRunner) (k : Nat), (s.runners.set r { rs with loading := some s.conc.sessions.length })[q]? = some qs →
            qs.loading = some k → (q = r ∧ k = s.conc.sessions.length) ∨
              (q ≠ r ∧ s.runners[q]? = some qs ∧ k < s.conc.sessions.length) := by
          intro q qs k h1 h2
          rw [List.getElem?_set] at h1
          by_cases hq : r = q
          · subst hq
            rw [if_pos rfl, if_pos hlt, Option.some.injEq] at h1
            subst h1
            exact .inl ⟨rfl, (Option.some.inj h2).symm⟩
          · rw [if_neg hq] at h1
            exact .inr ⟨fun h => hq h.symm, h1, O.lt q qs k h1 h2⟩
        refine ⟨fun q qs k h1 h2 => ?_, fun q q' qs qs' k h1 h1' h2 h2' => ?_⟩
        · simp only [PgConc.step, List.length_append, List.length_singleton]
          rcases hget q qs k h1 h2 with ⟨-, h⟩ | ⟨-, -, h⟩ <;> omega
        · rcases hget q qs k h1 h2 with ⟨g1, g2⟩ | ⟨g1, g2, g3⟩ <;>
          rcases hget q' qs' k h1' h2' with ⟨g1', g2'⟩ | ⟨g1', g2', g3'⟩
          · rw [g1, g1']
          · omega
          · omega
          · exact O.inj q q' qs qs' k g2 g2' h2 h2'
      · exact O
    · exact O
  | take r =>
    simp only [PgSys.step]
    split
    · rename_i d rs hd hr
      split
      · refine same r rs _ hr ?_
        split
        · exact .inr rfl
        · exact .inr rfl
        · exact .inr rfl
      · exact same r rs _ hr (.inr rfl)
      · exact O
    · exact O
  | finish r i b =>
    simp only [PgSys.step]
    split
    · rename_i d rs hd hr
      split
      · split
        · exact O
        · split
          · exact same r rs _ hr (.inl rfl)
          · exact same r rs _ hr (.inr rfl)
      · exact O
    · exact O
  | report r i =>
    simp only [PgSys.step]
    split
    · rename_i rs hr
      split
      · rename_i t o _
        split
        · exact O
        · rename_i ev c _ he
          have : c = (s.conc.step hash tie now (.stmt o)).2 := by rw [he]
          refine own_keep O (by rw [this]; exact sessions_length_mono) (own_set hr (.inl rfl))
      · exact O
    · exact O
  | lose r i =>
    simp only [PgSys.step]
    split
    · rename_i rs hr
      split
      · exact same r rs _ hr (.inl rfl)
      · exact O
    · exact O
  | stop r =>
    simp only [PgSys.step]
    split
    · rename_i rs hr; exact same r rs _ hr (.inr rfl)
    · exact O
  | drop r =>
    simp only [PgSys.step]
    split
    · rename_i rs hr; exact same r rs _ hr (.inr rfl)
    · exact O
  | kill r =>
    simp only [PgSys.step]
    split
    · rename_i rs hr; exact same r rs _ hr (.inr rfl)
    · exact O

/-! ## One job, step by step -/

/-- What a step does to the carriers of one job and to the database, seen from that job. -/
inductive CStep (hash : HashFn) (tie : Int → Nat) (now : Time) (id : Int) (s : PgSys) : PSEv → PgSys → Prop where
  | away (ev : PSEv) (s' : PgSys)
      (hsub : ∀ r x c, s'.carrier r x = some c → c.id = id → s.carrier r x = some c)
      (hback : ev.back = none) (hconc : s'.conc = s.conc) (hend : ∀ r t j c, ev = .ended r t j c → t.id ≠ id)
      (hexec : ev.executes id = false) :
      CStep hash tie now id s ev s'
  | other (ev : PSEv) (s' : PgSys) (b : PgAct)
      (hsub : ∀ r x c, s'.carrier r x = some c → c.id = id → s.carrier r x = some c)
      (hback : ev.back = some (s.conc.step hash tie now b).1) (hconc : s'.conc = (s.conc.step hash tie now b).2)
      (ht : (s.conc.step hash tie now b).1.touches id = false) : CStep hash tie now id s ev s'
  | handed (k : Nat) (row : Row) (res : Res) (s' : PgSys)
      (hev : (s.conc.step hash tie now (.advance k)).1 = .handedOut row res) (hid : row.id = id)
      (hconc : s'.conc = (s.conc.step hash tie now (.advance k)).2)
      (hruns : s'.runners = s.runners)
      (hnew : ∀ r x c, s'.carrier r x = some c → c.id = id → s.carrier r x = some c ∨
        (x = none ∧ (∃ rs, s.runners[r]? = some rs ∧ rs.loading = some k) ∧ ∃ j, c = .loaded j ∧ row.decode = some j)) :
      CStep hash tie now id s (.db (.handedOut row res)) s'
  | taken (r : Nat) (j : Job) (st : Started) (s' : PgSys) (hid : j.id = id)
      (hhad : s.carrier r none = some (.loaded j)) (hconc : s'.conc = s.conc)
      (hnew : ∀ q x c, s'.carrier q x = some c → c.id = id → (s.carrier q x = some c ∧ (q, x) ≠ (r, none)) ∨
        (q = r ∧ s.carrier r x = none ∧ ∃ t, c = .flight ⟨t, .running⟩ ∧ st = .running t ∧
          t.isFinal = decide (j.attempt = j.maxAttempts) ∧
          ∃ rs, s.runners[r]? = some rs ∧ x = some rs.flights.length)) :
      CStep hash tie now id s (.took r (.job (some j)) (some st)) s'
  | ended (r i : Nat) (t : Task) (j : Joined) (d : Runner) (o : Op) (s' : PgSys) (hid : t.id = id)
      (ho : d.report now t j = some o) (hhad : s.carrier r (some i) = some (.flight ⟨t, .running⟩))
      (hconc : s'.conc = s.conc)
      (hnew : ∀ q x, s'.carrier q x = if q = r ∧ x = some i then some (.flight ⟨t, .reporting o⟩) else s.carrier q x) :
      CStep hash tie now id s (.ended r t j (some o)) s'
  | overflowed (r i : Nat) (t : Task) (j : Joined) (s' : PgSys) (hid : t.id = id)
      (hhad : s.carrier r (some i) = some (.flight ⟨t, .running⟩)) (hconc : s'.conc = s.conc)
      (hsub : ∀ q x c, s'.carrier q x = some c → q ≠ r ∧ s.carrier q x = some c) :
      CStep hash tie now id s (.ended r t j none) s'
  | reported (r i : Nat) (t : Task) (o : Op) (s' : PgSys) (hid : t.id = id)
      (hhad : s.carrier r (some i) = some (.flight ⟨t, .reporting o⟩))
      (hnb : (s.conc.step hash tie now (.stmt o)).1 ≠ .blocked)
      (hconc : s'.conc = (s.conc.step hash tie now (.stmt o)).2)
      (hsub : ∀ q x c, s'.carrier q x = some c → s.carrier q x = some c ∧ (q, x) ≠ (r, some i)) :
      CStep hash tie now id s (.reported r t (s.conc.step hash tie now (.stmt o)).1) s'

/-- Every call about to be made is one the runner makes for that execution. -/
def PgReportable (s : PgSys) : Prop :=
  ∀ r x t o, s.carrier r x = some (.flight ⟨t, .reporting o⟩) → Reportable t o

/-- A statement changes no session. -/
theorem stmt_sessions (c : PgConc) (hash : HashFn) (tie : Int → Nat) (now : Time) (o : Op) :
    (c.step hash tie now (.stmt o)).2.sessions = c.sessions := by
  cases o <;> simp only [PgConc.step] <;> first | rfl | (split <;> rfl)

theorem carrier_sessions {c c' : PgConc} (h : c'.sessions = c.sessions) (l : List PgRunner) (r : Nat) (x : Option Nat) :
    PgSys.carrier ⟨c', l⟩ r x = PgSys.carrier ⟨c, l⟩ r x := by
  simp only [PgSys.carrier]
  congr 1; funext rs
  cases x <;> simp [PgRunner.slot, h]

/-- A job handed over by a step of the database. -/
theorem db_carrier {s : PgSys} {hash : HashFn} {tie : Int → Nat} {now : Time} {b : PgAct} (O : PgOwn s) {r : Nat} {x : Option Nat}
    {c : Carrier} (h : PgSys.carrier ⟨(s.conc.step hash tie now b).2, s.runners⟩ r x = some c) :
    s.carrier r x = some c ∨ ∃ k rs row j, b = .advance k ∧ x = none ∧ s.runners[r]? = some rs ∧ rs.loading = some k ∧
      c = .loaded j ∧ row.decode = some j ∧ (s.conc.step hash tie now b).1 = .handedOut row (.job (some j)) := by
  obtain ⟨rs, hr, hsl⟩ := Option.bind_eq_some_iff.mp h
  simp only at hr
  cases x with
  | some i =>
    left
    obtain ⟨f, hf, rfl⟩ := slot_flight_inv hsl
    rw [carrier_of hr]; simp [PgRunner.slot, hf]
  | none =>
    obtain ⟨k, j, hl, hs', rfl⟩ := slot_loaded_inv hsl
    have hlt := O.lt r rs k hr hl
    have hs : s.conc.sessions[k]? = some s.conc.sessions[k] := List.getElem?_eq_getElem hlt
    rcases session_at hs hs' with h1 | ⟨h1, h2⟩ | h1
    · left; rw [carrier_of hr]; exact slot_loaded hl (by rw [hs, ← h1])
    · generalize s.conc.sessions[k] = ss at *
      subst h1
      cases ss with
      | done res =>
        left
        simp only [PgConc.advance] at h2
        rw [carrier_of hr]; exact slot_loaded hl (by rw [hs, ← h2])
      | locked y t id =>
        right
        simp only [PgConc.advance] at h2
        split at h2
        · simp at h2
        · rename_i q hq
          simp only [Session.done.injEq] at h2
          cases hd : (q.markExecuting t).decode with
          | none => rw [hd] at h2; simp at h2
          | some j' =>
            rw [hd] at h2
            simp only [Res.job.injEq, Option.some.injEq] at h2
            subst h2
            refine ⟨k, rs, q.markExecuting t, j, rfl, rfl, hr, hl, rfl, hd, ?_⟩
            simp only [PgConc.step, hs, PgConc.advance, hq, hd]
      | handout y => simp [PgConc.advance] at h2
      | looking y t snap => simp only [PgConc.advance] at h2; split at h2 <;> simp at h2
      | unique e uc t => simp only [PgConc.advance] at h2; split at h2 <;> simp at h2
      | holding e uc t => simp only [PgConc.advance] at h2; split at h2 <;> simp at h2
      | missing e uc t => simp only [PgConc.advance] at h2; split at h2 <;> simp at h2
      | inserted e uc row => simp [PgConc.advance] at h2
      | replacing e uc rep i => simp [PgConc.advance] at h2
      | found e uc id st =>
        simp only [PgConc.advance] at h2
        split at h2
        · split at h2
          · split at h2
            · simp at h2
            · split at h2 <;> simp at h2
          · simp at h2
        · simp at h2
    · cases h1

/-- A hand-out is a step of a session. -/
theorem handedOut_advance {c : PgConc} {hash : HashFn} {tie : Int → Nat} {now : Time} {b : PgAct} {row : Row} {res : Res}
    (h : (c.step hash tie now b).1 = .handedOut row res) : ∃ k, b = .advance k := by
  cases b with
  | handout x => simp [PgConc.step] at h
  | unique e uc => simp [PgConc.step] at h
  | abort i => simp only [PgConc.step] at h; split at h <;> simp at h
  | plain e => simp only [PgConc.step] at h; split at h <;> simp at h
  | stmt o => cases o <;> simp only [PgConc.step] at h <;> first | (split at h <;> cases h) | cases h
  | advance i => exact ⟨i, rfl⟩

theorem decode_fields {row : Row} {j : Job} (h : row.decode = some j) :
    j.id = row.id ∧ j.attempt = row.attempt ∧ j.maxAttempts = row.maxAttempts ∧ j.executor = row.executor := by
  unfold Row.decode at h
  split at h
  · cases h
  · cases h; exact ⟨rfl, rfl, rfl, rfl⟩

theorem reportable_pg_touches {t : Task} {o : Op} {res : Res} {id : Int} (h : Reportable t o)
    (ht : (PgEv.stmt o res).touches id = true) : id = t.id := by
  rcases reportable_cases h with rfl | ⟨e, rfl⟩ | ⟨x, rfl⟩ | ⟨-, e, rfl⟩ | ⟨-, x, e, rfl⟩ <;>
  · cases res <;>
      simp [PgEv.touches, PgEv.handsOut, PgEv.retries, PgEv.snoozes, PgEv.reruns, PgEv.edits, PgEv.finishes] at ht
    exact ht.symm

/-- The event of a statement. -/
theorem stmt_event (c : PgConc) (hash : HashFn) (tie : Int → Nat) (now : Time) (o : Op) :
    (c.step hash tie now (.stmt o)).1 = .blocked ∨ (c.step hash tie now (.stmt o)).1 = .internal ∨
    ∃ res, (c.step hash tie now (.stmt o)).1 = .stmt o res := by
  cases o <;> simp only [PgConc.step] <;> first | exact .inr (.inl trivial) | exact .inr (.inl rfl) | (split; exact .inl rfl; exact .inr (.inr ⟨_, rfl⟩))

theorem c_step {s : PgSys} (O : PgOwn s) (R : PgReportable s) (hash : HashFn) (defs : List Runner) (tie : Int → Nat) (now : Time)
    (a : PSAct) (id : Int)
    (hq : ∀ ev, (s.step hash defs tie now a).1 = .db ev → ev.touches id = true → ev.handsOut id = true) :
    CStep hash tie now id s (s.step hash defs tie now a).1 (s.step hash defs tie now a).2 := by
  have idle : CStep hash tie now id s .nothing s := .away _ _ (fun _ _ _ h _ => h) rfl rfl (by simp) rfl
  cases a with
  | db b =>
    by_cases ht : (s.conc.step hash tie now b).1.touches id = true
    · have hh := hq _ rfl ht
      generalize hev : (s.conc.step hash tie now b).1 = ev at *
      cases ev with
      | handedOut row res =>
        obtain ⟨k, rfl⟩ := handedOut_advance hev
        simp only [PgSys.step, hev]
        refine .handed k row res _ hev (by simpa [PgEv.handsOut] using hh) rfl rfl ?_
        intro r x c hc hid
        rcases db_carrier O hc with h | ⟨k', rs, row', j, h1, h2, h3, h4, h5, h6, h7⟩
        · exact .inl h
        · cases h1
          rw [hev] at h7
          cases h7
          exact .inr ⟨h2, ⟨rs, h3, h4⟩, j, h5, h6⟩
      | _ => simp [PgEv.handsOut] at hh
    · refine .other _ _ b ?_ rfl rfl (by simpa using ht)
      intro r x c hc hid
      rcases db_carrier O hc with h | ⟨k', rs, row', j, h1, h2, h3, h4, h5, h6, h7⟩
      · exact h
      · exfalso
        apply ht
        rw [h7]
        subst h5
        have := (decode_fields h6).1
        simp only [Carrier.id] at hid
        simp [PgEv.touches, PgEv.handsOut, ← this, hid]
  | pull r =>
    simp only [PgSys.step]
    split
    · rename_i d rs hd hr
      split
      · refine .other _ _ (.handout d.name) ?_ rfl rfl rfl
        intro q x c hc hid
        rw [carrier_set hr] at hc
        split at hc
        · rename_i hqr; subst hqr
          rw [carrier_of hr]
          cases x with
          | none => simp [PgRunner.slot, PgConc.step] at hc
          | some i => exact hc
        · rcases db_carrier (s := s) O hc with h | ⟨k', rs, row', j, h1, -⟩
          · exact h
          · cases h1
      · exact idle
    · exact idle
  | take r =>
    simp only [PgSys.step]
    split
    · rename_i d rs hd hr
      split
      · rename_i j hj
        obtain ⟨k, hl, hk⟩ := Option.bind_eq_some_iff.mp hj
        have hhad : s.carrier r none = some (.loaded j) := by rw [carrier_of hr]; exact slot_loaded hl hk
        have drop : ∀ (rs' : PgRunner), rs'.loading = none → (∀ i : Nat, rs'.flights[i]? = rs.flights[i]? ∨ rs'.flights = []) →
            ∀ q x c, PgSys.carrier ⟨s.conc, s.runners.set r rs'⟩ q x = some c →
              s.carrier q x = some c ∧ (q, x) ≠ (r, none) := by
          intro rs' h1 h2 q x c hc
          rw [carrier_set hr] at hc
          split at hc
          · rename_i hqr; subst hqr
            cases x with
            | none => simp [PgRunner.slot, h1] at hc
            | some i =>
              refine ⟨?_, by simp⟩
              rw [carrier_of hr]
              obtain ⟨f, hf, rfl⟩ := slot_flight_inv hc
              rcases h2 i with h2 | h2
              · rw [h2] at hf; simp [PgRunner.slot, hf]
              · rw [h2] at hf; simp at hf
          · rename_i hqr
            exact ⟨hc, by simp [hqr]⟩
        cases hst : d.start j with
        | undecodable =>
          have := drop { rs with loading := none } rfl (fun _ => .inl rfl)
          by_cases hid : j.id = id
          · exact .taken r j _ _ hid hhad rfl fun q x c hc _ => .inl (this q x c hc)
          · exact .away _ _ (fun q x c hc _ => (this q x c hc).1) rfl rfl (by simp) rfl
        | runnerPanics =>
          have := drop rs.crash rfl (fun _ => .inr rfl)
          by_cases hid : j.id = id
          · exact .taken r j _ _ hid hhad rfl fun q x c hc _ => .inl (this q x c hc)
          · exact .away _ _ (fun q x c hc _ => (this q x c hc).1) rfl rfl (by simp) rfl
        | running t =>
          obtain ⟨htid, hfin⟩ := start_running hst
          have key : ∀ q x c, PgSys.carrier ⟨s.conc, s.runners.set r { rs with loading := none, flights := rs.flights ++ [some ⟨t, .running⟩] }⟩ q x = some c →
              (s.carrier q x = some c ∧ (q, x) ≠ (r, none)) ∨ (q = r ∧ s.carrier r x = none ∧ c = .flight ⟨t, .running⟩ ∧ x = some rs.flights.length) := by
            intro q x c hc
            rw [carrier_set hr] at hc
            split at hc
            · rename_i hqr; subst hqr
              cases x with
              | none => simp [PgRunner.slot] at hc
              | some i =>
                obtain ⟨f, hf, rfl⟩ := slot_flight_inv hc
                rw [carrier_of hr]
                simp only [List.getElem?_append] at hf
                split at hf
                · exact .inl ⟨by simp [PgRunner.slot, hf], by simp⟩
                · rename_i hi
                  right
                  have hi0 : i - rs.flights.length = 0 := by
                    cases h : i - rs.flights.length with
                    | zero => rfl
                    | succ n => rw [h] at hf; simp at hf
                  rw [hi0] at hf
                  simp only [List.getElem?_cons_zero, Option.some.injEq] at hf
                  subst hf
                  have : rs.flights[i]? = none := List.getElem?_eq_none (by omega)
                  exact ⟨rfl, by simp [PgRunner.slot, this], rfl, by congr 1; omega⟩
            · rename_i hqr
              exact .inl ⟨hc, by simp [hqr]⟩
          by_cases hid : j.id = id
          · refine .taken r j _ _ hid hhad rfl fun q x c hc _ => ?_
            rcases key q x c hc with h | ⟨h1, h2, h3, h4⟩
            · exact .inl h
            · exact .inr ⟨h1, h2, t, h3, rfl, hfin, rs, hr, h4⟩
          · refine .away _ _ (fun q x c hc hcid => ?_) rfl rfl (by simp) (by simp [PSEv.executes, htid, hid])
            rcases key q x c hc with h | ⟨h1, h2, h3, h4⟩
            · exact h.1
            · subst h3; simp only [Carrier.id] at hcid; rw [htid] at hcid; exact absurd hcid hid
      · refine .away _ _ (fun q x c hc _ => ?_) rfl rfl (by simp) rfl
        rw [carrier_set hr] at hc
        split at hc
        · rename_i hqr; subst hqr
          cases x with
          | none => simp [PgRunner.slot] at hc
          | some i => rw [carrier_of hr]; exact hc
        · exact hc
      · exact idle
    · exact idle
  | finish r i b =>
    simp only [PgSys.step]
    split
    · rename_i d rs hd hr
      split
      · rename_i t hfl
        have hhad : s.carrier r (some i) = some (.flight ⟨t, .running⟩) := by rw [carrier_of hr]; simp [PgRunner.slot, hfl]
        split
        · exact idle
        · rename_i j hj
          split
          · rename_i o ho
            have hnew : ∀ q x, PgSys.carrier ⟨s.conc, s.runners.set r { rs with flights := rs.flights.set i (some ⟨t, .reporting o⟩) }⟩ q x =
                if q = r ∧ x = some i then some (.flight ⟨t, .reporting o⟩) else s.carrier q x := by
              intro q x
              rw [carrier_set hr, slot_set hfl]
              by_cases hq : q = r
              · subst hq; rw [carrier_of hr]; simp
              · simp [hq]
            by_cases hid : t.id = id
            · exact .ended r i t j d o _ hid ho hhad rfl hnew
            · refine .away _ _ (fun q x c hc hcid => ?_) rfl rfl ?_ rfl
              · rw [hnew] at hc
                split at hc
                · cases hc; exact absurd hcid hid
                · exact hc
              · rintro r' t' j' c' he; cases he; exact hid
          · rename_i ho
            have hsub : ∀ q x c, PgSys.carrier ⟨s.conc, s.runners.set r rs.crash⟩ q x = some c → q ≠ r ∧ s.carrier q x = some c := by
              intro q x c hc
              rw [carrier_set hr, slot_crash] at hc
              split at hc
              · cases hc
              · rename_i h; exact ⟨h, hc⟩
            by_cases hid : t.id = id
            · exact .overflowed r i t j _ hid hhad rfl hsub
            · refine .away _ _ (fun q x c hc _ => (hsub q x c hc).2) rfl rfl ?_ rfl
              rintro r' t' j' c' he; cases he; exact hid
      · exact idle
    · exact idle
  | report r i =>
    simp only [PgSys.step]
    split
    · rename_i rs hr
      split
      · rename_i t o hfl
        have hhad : s.carrier r (some i) = some (.flight ⟨t, .reporting o⟩) := by rw [carrier_of hr]; simp [PgRunner.slot, hfl]
        have hrep := R r (some i) t o hhad
        split
        · exact idle
        · rename_i ev c hnb he
          have h1 : ev = (s.conc.step hash tie now (.stmt o)).1 := by rw [he]
          have h2 : c = (s.conc.step hash tie now (.stmt o)).2 := by rw [he]
          have hnb' : (s.conc.step hash tie now (.stmt o)).1 ≠ .blocked := by
            rw [← h1]; intro h; exact hnb h
          subst h1 h2
          have hsub : ∀ q x c, PgSys.carrier ⟨(s.conc.step hash tie now (.stmt o)).2, s.runners.set r { rs with flights := rs.flights.set i none }⟩ q x = some c →
              s.carrier q x = some c ∧ (q, x) ≠ (r, some i) := by
            intro q x c hc
            rw [carrier_set hr] at hc
            split at hc
            · rename_i hqr; subst hqr
              rw [slot_set hfl] at hc
              split at hc
              · cases hc
              · rename_i hx
                refine ⟨?_, by simpa using hx⟩
                rw [carrier_of hr]
                cases x with
                | none => simpa [PgRunner.slot, stmt_sessions] using hc
                | some i => exact hc
            · rename_i hqr
              rw [carrier_sessions (stmt_sessions _ _ _ _ _)] at hc
              exact ⟨hc, by simp [hqr]⟩
          by_cases hid : t.id = id
          · exact .reported r i t o _ hid hhad hnb' rfl hsub
          · refine .other _ _ (.stmt o) (fun q x c hc _ => (hsub q x c hc).1) rfl rfl ?_
            rcases stmt_event s.conc hash tie now o with h | h | ⟨res, h⟩
            · exact absurd h hnb'
            · rw [h]; rfl
            · rw [h]
              cases ht : (PgEv.stmt o res).touches id with
              | false => rfl
              | true => exact absurd (reportable_pg_touches hrep ht).symm hid
      · exact idle
    · exact idle
  | lose r i =>
    simp only [PgSys.step]
    split
    · rename_i rs hr
      split
      · rename_i t o hfl
        refine .away _ _ (fun q x c hc _ => ?_) rfl rfl (by simp) rfl
        rw [carrier_set hr] at hc
        split at hc
        · rename_i hqr; subst hqr
          rw [slot_set hfl] at hc
          split at hc
          · cases hc
          · rw [carrier_of hr]; exact hc
        · exact hc
      · exact idle
    · exact idle
  | stop r =>
    simp only [PgSys.step]
    split
    · rename_i rs hr
      refine .away _ _ (fun q x c hc _ => ?_) rfl rfl (by simp) rfl
      rw [carrier_set hr] at hc
      split at hc
      · rename_i hqr; subst hqr
        cases x with
        | none => simp [PgRunner.slot] at hc
        | some i => rw [carrier_of hr]; exact hc
      · exact hc
    · exact idle
  | drop r =>
    simp only [PgSys.step]
    split
    · rename_i rs hr
      refine .away _ _ (fun q x c hc _ => ?_) rfl rfl (by simp) rfl
      rw [carrier_set hr] at hc
      split at hc
      · rename_i hqr; subst hqr
        cases x with
        | none => simp [PgRunner.slot] at hc
        | some i => rw [carrier_of hr]; exact hc
      · exact hc
    · exact idle
  | kill r =>
    simp only [PgSys.step]
    split
    · rename_i rs hr
      refine .away _ _ (fun q x c hc _ => ?_) rfl rfl (by simp) rfl
      rw [carrier_set hr, slot_crash] at hc
      split at hc
      · cases hc
      · exact hc
    · exact idle

/-! ## Invariants -/

/-- Every call a runner is about to make is one it makes for that execution. -/
def PgReps (s : PgSys) : Prop :=
  ∀ rs ∈ s.runners, ∀ t o, some ⟨t, .reporting o⟩ ∈ rs.flights → Reportable t o

theorem PgReps.reportable {s : PgSys} (R : PgReps s) : PgReportable s := by
  intro r x t o h
  obtain ⟨rs, hr, hsl⟩ := Option.bind_eq_some_iff.mp h
  cases x with
  | none => obtain ⟨k, j, -, -, h⟩ := slot_loaded_inv hsl; cases h
  | some i =>
    obtain ⟨f, hf, h⟩ := slot_flight_inv hsl
    cases h
    exact R rs (List.mem_of_getElem? hr) t o (List.mem_of_getElem? hf)

private theorem reps_set {s : PgSys} (R : PgReps s) {r : Nat} {rs rs' : PgRunner} (hr : s.runners[r]? = some rs) (c : PgConc)
    (h : ∀ t o, some ⟨t, .reporting o⟩ ∈ rs'.flights → some ⟨t, .reporting o⟩ ∈ rs.flights ∨ Reportable t o) :
    PgReps ⟨c, s.runners.set r rs'⟩ := by
  intro qs hq t o hf
  rcases List.mem_or_eq_of_mem_set hq with hq | rfl
  · exact R qs hq t o hf
  · rcases h t o hf with h | h
    · exact R rs (List.mem_of_getElem? hr) t o h
    · exact h

theorem PgReps.step {s : PgSys} (R : PgReps s) (hash : HashFn) (defs : List Runner) (tie : Int → Nat) (now : Time) (a : PSAct) :
    PgReps (s.step hash defs tie now a).2 := by
  cases a with
  | db b => exact R
  | pull r =>
    simp only [PgSys.step]
    split
    · rename_i hr
      split
      · exact reps_set R hr _ (fun _ _ h => .inl h)
      · exact R
    · exact R
  | take r =>
    simp only [PgSys.step]
    split
    · rename_i hr
      split
      · refine reps_set R hr _ ?_
        intro t o h
        split at h
        · simp at h; exact .inl h
        · exact .inl h
        · simp [PgRunner.crash] at h
      · exact reps_set R hr _ (fun _ _ h => .inl h)
      · exact R
    · exact R
  | finish r i b =>
    simp only [PgSys.step]
    split
    · rename_i d rs hd hr
      split
      · split
        · exact R
        · split
          · rename_i j _ _ o ho
            refine reps_set R hr _ ?_
            intro t' o' h
            rcases List.mem_or_eq_of_mem_set h with h | h
            · exact .inl h
            · cases h; exact .inr ⟨d, now, j, ho⟩
          · exact reps_set R hr _ (fun _ _ h => by simp [PgRunner.crash] at h)
      · exact R
    · exact R
  | report r i =>
    simp only [PgSys.step]
    split
    · rename_i rs hr
      split
      · split
        · exact R
        · refine reps_set R hr _ ?_
          intro t' o' h
          rcases List.mem_or_eq_of_mem_set h with h | h
          · exact .inl h
          · cases h
      · exact R
    · exact R
  | lose r i =>
    simp only [PgSys.step]
    split
    · rename_i rs hr
      split
      · refine reps_set R hr _ ?_
        intro t' o' h
        rcases List.mem_or_eq_of_mem_set h with h | h
        · exact .inl h
        · cases h
      · exact R
    · exact R
  | stop r =>
    simp only [PgSys.step]
    split
    · rename_i hr; exact reps_set R hr _ (fun _ _ h => .inl h)
    · exact R
  | drop r =>
    simp only [PgSys.step]
    split
    · rename_i hr; exact reps_set R hr _ (fun _ _ h => .inl h)
    · exact R
  | kill r =>
    simp only [PgSys.step]
    split
    · rename_i hr; exact reps_set R hr _ (fun _ _ h => by simp [PgRunner.crash] at h)
    · exact R

/-- What holds of the system after every schedule. -/
structure PgSysInv (h : List TPSEv) (s : PgSys) : Prop where
  own : PgOwn s
  reps : PgReps s
  inv : PgInv s.conc
  hist : PgHist (dbHistory h) s.conc

theorem PgSysInv.init (defs : List Runner) : PgSysInv [] (PgSys.init defs) where
  own := PgOwn.init defs
  reps := by
    intro rs hrs t o h
    simp only [PgSys.init, List.mem_map] at hrs
    obtain ⟨d, -, rfl⟩ := hrs
    simp at h
  inv := PgInv.init
  hist := PgHist.init

theorem PgSysInv.step {h : List TPSEv} {s : PgSys} (I : PgSysInv h s) (hash : HashFn) (defs : List Runner) (tie : Int → Nat)
    (now : Time) (a : PSAct) :
    PgSysInv (h ++ [⟨now, (s.step hash defs tie now a).1⟩]) (s.step hash defs tie now a).2 := by
  refine ⟨I.own.step hash defs tie now a, I.reps.step hash defs tie now a, ?_, ?_⟩
  · rcases psys_back hash defs tie now s a with ⟨-, hc⟩ | ⟨b, -, hc⟩ <;> rw [hc]
    · exact I.inv
    · exact I.inv.step hash tie now b
  · rcases psys_back hash defs tie now s a with ⟨hb, hc⟩ | ⟨b, hb, hc⟩ <;> rw [hc]
    · rw [db_none hb]; exact I.hist
    · rw [db_some hb]; exact I.hist.step I.inv hash tie now b

theorem pgSysInv (hash : HashFn) (defs : List Runner) (as : List TPSAct) :
    PgSysInv ((PgSys.init defs).trace hash defs as) ((PgSys.init defs).run hash defs as) := by
  induction as using snoc_induction with
  | nil => exact PgSysInv.init defs
  | snoc as a ih =>
    rw [PgSys.trace_append, PgSys.run_append]
    exact ih.step hash defs a.tie a.now a.act

/-- At most one runner has the job, and while one has it, it is stored as being executed and
`R` holds of what the runner knows and the row. -/
structure PTrackBy (R : Bool → Row → Prop) (id : Int) (h : List TPSEv) (s : PgSys) : Prop where
  seen : ∀ r x c, s.carrier r x = some c → c.id = id → id ∈ pgInserted (dbHistory h)
  one : ∀ r x c r' x' c', s.carrier r x = some c → c.id = id → s.carrier r' x' = some c' → c'.id = id → r = r' ∧ x = x'
  exec : ∀ r x c, s.carrier r x = some c → c.id = id → ∀ row ∈ s.conc.pg.rows, row.id = id →
    row.status = .executing ∧ R c.final row

/-- A job that only runners touch: at most one runner has it, and while one has it, it is
stored as being executed. -/
abbrev PTrack : Int → List TPSEv → PgSys → Prop := PTrackBy fun f row => f = decide (row.attempt = row.maxAttempts)

/-- A row after a step that does not touch it was there before, or is new. -/
theorem untouched_row {h : List TPgEv} {c : PgConc} (H : PgInv c) (I : PgHist h c) {hash : HashFn} {tie : Int → Nat} {now : Time}
    {b : PgAct} {id : Int} (ht : (c.step hash tie now b).1.touches id = false) {row : Row}
    (hr : row ∈ (c.step hash tie now b).2.pg.rows) (hid : row.id = id) :
    (row ∈ c.pg.rows) ∨ ((∃ uc, (c.step hash tie now b).1 = .inserted row uc) ∧ id ∉ pgInserted h ∧ id ∉ rowIds c.pg.rows ∧
      ∃ e t key, row = EnqueuableJob.toRow t e row.id key) := by
  rcases (table_step H hash tie now b).back hr with ⟨uc, he, hn⟩ | ⟨r, hr, hrid, hm, -⟩
  · refine .inr ⟨⟨uc, he⟩, ?_, hid ▸ hn, inserted_fresh I he⟩
    intro hin
    rcases inserted_from he with ⟨e, uc', -, hs⟩ | ⟨e, -, -, -, hrow, -⟩
    · exact I.fresh _ _ _ hs (by rw [hid]; exact hin)
    · have h1 : row.id = ((c.pg.seq + 1 : Nat) : Int) := by rw [hrow]; rfl
      have := (I.low _ hin).2
      omega
  · left
    have := hm.quiet (by rw [hrid, hid]; exact ht)
    rw [this]; exact hr

theorem inserted_grow {h : List TPSEv} {now : Time} {ev : PSEv} {id : Int} (hi : id ∈ pgInserted (dbHistory h)) :
    id ∈ pgInserted (dbHistory (h ++ [⟨now, ev⟩])) := by
  cases hb : ev.back with
  | none => rw [db_none hb]; exact hi
  | some b => rw [db_some hb]; exact mem_pgInserted_append.mpr (.inl hi)

/-- Before a hand-out of a job nobody has it. -/
theorem PTrackBy.idle {R : Bool → Row → Prop} {id : Int} {h : List TPSEv} {s : PgSys} (T : PTrackBy R id h s) (I : PgSysInv h s) {hash : HashFn}
    {tie : Int → Nat} {now : Time} {b : PgAct} {row : Row} {res : Res}
    (hev : (s.conc.step hash tie now b).1 = .handedOut row res) (hid : row.id = id) (r : Nat) (x : Option Nat) (c : Carrier)
    (hc : s.carrier r x = some c) : c.id ≠ id := by
  intro hcid
  obtain ⟨q, hq, hqid, -, y, t, -, hrd, -⟩ := handedOut_mem I.inv hev
  have := (T.exec r x c hc hcid q hq (by rw [hqid, hid])).1
  rcases (ready_iff'.mp hrd).waiting with h | h <;> rw [this] at h <;> cases h

theorem PTrackBy.step {R : Bool → Row → Prop} {id : Int} {h : List TPSEv} {s s' : PgSys} (T : PTrackBy R id h s)
    (I : PgSysInv h s) {hash : HashFn} {tie : Int → Nat} {now : Time} {ev : PSEv} (hs : CStep hash tie now id s ev s')
    (hR : ∀ row ∈ s'.conc.pg.rows, row.id = id → (∃ res, ev = .db (.handedOut row res)) →
      R (decide (row.attempt = row.maxAttempts)) row) :
    PTrackBy R id (h ++ [⟨now, ev⟩]) s' := by
  cases hs with
  | away _ _ hsub hback hconc hend _ =>
    exact ⟨fun r x c hc hid => inserted_grow (T.seen r x c (hsub r x c hc hid) hid),
      fun r x c r' x' c' h1 h2 h3 h4 => T.one r x c r' x' c' (hsub _ _ _ h1 h2) h2 (hsub _ _ _ h3 h4) h4,
      fun r x c hc hid => by rw [hconc]; exact T.exec r x c (hsub r x c hc hid) hid⟩
  | other _ _ b hsub hback hconc ht =>
    refine ⟨fun r x c hc hid => inserted_grow (T.seen r x c (hsub r x c hc hid) hid),
      fun r x c r' x' c' h1 h2 h3 h4 => T.one r x c r' x' c' (hsub _ _ _ h1 h2) h2 (hsub _ _ _ h3 h4) h4,
      fun r x c hc hid row hrow hrid => ?_⟩
    rw [hconc] at hrow
    rcases untouched_row I.inv I.hist ht hrow hrid with h1 | ⟨-, hn, -⟩
    · exact T.exec r x c (hsub r x c hc hid) hid row h1 hrid
    · exact absurd (T.seen r x c (hsub r x c hc hid) hid) hn
  | handed k row res _ hev hid hconc hruns hnew =>
    have hidle := T.idle I hev hid
    have new : ∀ r x c, s'.carrier r x = some c → c.id = id →
        x = none ∧ (∃ rs, s.runners[r]? = some rs ∧ rs.loading = some k) ∧ ∃ j, c = .loaded j ∧ row.decode = some j := by
      intro r x c hc hcid
      rcases hnew r x c hc hcid with h1 | h1
      · exact absurd hcid (hidle r x c h1)
      · exact h1
    obtain ⟨q, hq, hqid, hmem, y, t, -, hrd, he⟩ := handedOut_mem I.inv hev
    refine ⟨fun r x c hc hcid => inserted_grow ?_, ?_, ?_⟩
    · rw [← hid, ← hqid]; exact I.hist.ids q hq
    · intro r x c r' x' c' h1 h2 h3 h4
      obtain ⟨e1, ⟨rs, g1, g2⟩, -⟩ := new r x c h1 h2
      obtain ⟨e1', ⟨rs', g1', g2'⟩, -⟩ := new r' x' c' h3 h4
      exact ⟨I.own.inj r r' rs rs' k g1 g1' g2 g2', by rw [e1, e1']⟩
    · intro r x c hc hcid row' hrow' hrid
      obtain ⟨-, -, j, rfl, hd⟩ := new r x c hc hcid
      rw [hconc] at hrow'
      have : row' = row := row_unique (I.inv.step hash tie now _).nodup hrow' hmem (by rw [hrid, hid])
      rw [this]
      obtain ⟨-, g2, g3, -⟩ := decode_fields hd
      refine ⟨by rw [he]; rfl, ?_⟩
      simp only [Carrier.final, g2, g3]
      exact hR row (by rw [← this]; rw [hconc]; exact hrow') hid ⟨res, rfl⟩
  | taken r j st _ hid hhad hconc hnew =>
    have hone : ∀ q x c, s'.carrier q x = some c → c.id = id →
        q = r ∧ ∃ t, c = .flight ⟨t, .running⟩ ∧ t.isFinal = decide (j.attempt = j.maxAttempts) ∧
          ∃ rs, s.runners[r]? = some rs ∧ x = some rs.flights.length := by
      intro q x c hc hcid
      rcases hnew q x c hc hcid with ⟨h1, h2⟩ | ⟨h1, -, t, h3, -, h4, h5⟩
      · have := T.one q x c r none (.loaded j) h1 hcid hhad hid
        exact absurd (by rw [this.1, this.2]) h2
      · exact ⟨h1, t, h3, h4, h5⟩
    refine ⟨fun q x c hc hcid => inserted_grow (T.seen r none _ hhad hid), ?_, ?_⟩
    · intro q x c q' x' c' h1 h2 h3 h4
      obtain ⟨e1, -, -, -, rs, e2, e3⟩ := hone q x c h1 h2
      obtain ⟨e1', -, -, -, rs', e2', e3'⟩ := hone q' x' c' h3 h4
      rw [e2] at e2'
      cases e2'
      exact ⟨by rw [e1, e1'], by rw [e3, e3']⟩
    · intro q x c hc hcid row hrow hrid
      obtain ⟨-, t, rfl, hfin, -⟩ := hone q x c hc hcid
      rw [hconc] at hrow
      have := T.exec r none _ hhad hid row hrow hrid
      exact ⟨this.1, by simp only [Carrier.final] at this ⊢; rw [hfin]; exact this.2⟩
  | ended r i t j d o _ hid ho hhad hconc hnew =>
    have hsub : ∀ q x c, s'.carrier q x = some c → ∃ c₀, s.carrier q x = some c₀ ∧ c₀.id = c.id ∧ c₀.final = c.final := by
      intro q x c hc
      rw [hnew] at hc
      split at hc
      · rename_i hq
        cases hc
        exact ⟨.flight ⟨t, .running⟩, by rw [hq.1, hq.2]; exact hhad, rfl, rfl⟩
      · exact ⟨c, hc, rfl, rfl⟩
    refine ⟨fun q x c hc hcid => inserted_grow (T.seen r _ _ hhad hid), ?_, ?_⟩
    · intro q x c q' x' c' h1 h2 h3 h4
      obtain ⟨c₀, e1, e2, -⟩ := hsub q x c h1
      obtain ⟨c₁, e1', e2', -⟩ := hsub q' x' c' h3
      exact T.one q x c₀ q' x' c₁ e1 (e2.trans h2) e1' (e2'.trans h4)
    · intro q x c hc hcid row hrow hrid
      obtain ⟨c₀, e1, e2, e3⟩ := hsub q x c hc
      rw [hconc] at hrow
      have := T.exec q x c₀ e1 (e2.trans hcid) row hrow hrid
      rw [← e3]; exact this
  | overflowed r i t j _ hid hhad hconc hsub =>
    have none : ∀ q x c, s'.carrier q x = some c → c.id ≠ id := by
      intro q x c hc hcid
      have := hsub q x c hc
      exact this.1 (T.one q x c r (some i) _ this.2 hcid hhad hid).1
    exact ⟨fun q x c hc hcid => absurd hcid (none q x c hc), fun q x c q' x' c' h1 h2 => absurd h2 (none q x c h1),
      fun q x c hc hcid => absurd hcid (none q x c hc)⟩
  | reported r i t o _ hid hhad hnb hconc hsub =>
    have none : ∀ q x c, s'.carrier q x = some c → c.id ≠ id := by
      intro q x c hc hcid
      have := hsub q x c hc
      have he := T.one q x c r (some i) _ this.1 hcid hhad hid
      exact this.2 (by rw [he.1, he.2])
    exact ⟨fun q x c hc hcid => absurd hcid (none q x c hc), fun q x c q' x' c' h1 h2 => absurd h2 (none q x c h1),
      fun q x c hc hcid => absurd hcid (none q x c hc)⟩

theorem PTrackBy.init (R : Bool → Row → Prop) (id : Int) (defs : List Runner) : PTrackBy R id [] (PgSys.init defs) := by
  have none : ∀ r x c, (PgSys.init defs).carrier r x ≠ some c := by
    intro r x c h
    obtain ⟨rs, hr, hsl⟩ := Option.bind_eq_some_iff.mp h
    have := List.mem_of_getElem? hr
    simp only [PgSys.init, List.mem_map] at this
    obtain ⟨d, -, rfl⟩ := this
    cases x with
    | none => obtain ⟨k, j, h1, -⟩ := slot_loaded_inv hsl; cases h1
    | some i => obtain ⟨f, hf, -⟩ := slot_flight_inv hsl; simp at hf
  exact ⟨fun r x c hc => absurd hc (none r x c), fun r x c r' x' c' h1 => absurd h1 (none r x c),
    fun r x c hc => absurd hc (none r x c)⟩

theorem OthersLeave.left {id : Int} {h h' : List TPSEv} (H : OthersLeave id (h ++ h')) : OthersLeave id h :=
  fun e he => H e (List.mem_append_left _ he)

theorem pTrack (id : Int) (hash : HashFn) (defs : List Runner) (as : List TPSAct)
    (hq : OthersLeave id ((PgSys.init defs).trace hash defs as)) :
    PTrack id ((PgSys.init defs).trace hash defs as) ((PgSys.init defs).run hash defs as) := by
  induction as using snoc_induction with
  | nil => exact PTrackBy.init _ id defs
  | snoc as a ih =>
    have I := pgSysInv hash defs as
    rw [PgSys.trace_append] at hq ⊢
    rw [PgSys.run_append]
    exact (ih hq.left).step I (c_step I.own I.reps.reportable hash defs a.tie a.now a.act id
      fun ev he ht => hq ⟨a.now, _⟩ (List.mem_append_right _ (by simp [PgSys.trace])) ev he ht)
      fun _ _ _ _ => rfl

end Rexecutor
