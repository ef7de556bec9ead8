import Verif.Model.Migrate

/-! # C131 and C132: migrations of the Postgres backend -/

namespace Rexecutor
open Migrate

/-- The names in the scripts of the backend. -/
def jobTableNames : List String :=
  ["rexecutor_job_state", "rexecutor_jobs", "rexecutor_job_data_index", "rexecutor_job_meta_index", "rexecutor_job_uniqueness_index",
   "rexecutor_job_inserted_at_index", "rexecutor_new_job_notify", "rexecutor_insert", "rexecutor_update"]

/-- The names an object has or refers to. -/
def Migrate.Obj.names : Obj → List String
  | .type n => [n]
  | .table n ys => n :: ys
  | .index n t => [n, t]
  | .function n => [n]
  | .trigger n t f => [n, t, f]

/-- Whatever else there is, there is nothing with a name of the backend. -/
def Migrate.Db.Foreign (d : Db) : Prop := ∀ o ∈ d.objects, ∀ n ∈ o.names, n ∉ jobTableNames

/-- What the backend needs: a type, a table, four indexes, a function and a trigger for inserts and one for updates. -/
def jobTableObjects : List Obj :=
  [.type "rexecutor_job_state", .table "rexecutor_jobs" ["rexecutor_job_state"],
   .index "rexecutor_job_data_index" "rexecutor_jobs", .index "rexecutor_job_meta_index" "rexecutor_jobs",
   .index "rexecutor_job_uniqueness_index" "rexecutor_jobs", .index "rexecutor_job_inserted_at_index" "rexecutor_jobs",
   .function "rexecutor_new_job_notify", .trigger "rexecutor_insert" "rexecutor_jobs" "rexecutor_new_job_notify",
   .trigger "rexecutor_update" "rexecutor_jobs" "rexecutor_new_job_notify"]

private theorem none_isType {l : List Obj} (h : ∀ o ∈ l, ∀ n ∈ o.names, n ∉ jobTableNames) {n : String} (hn : n ∈ jobTableNames) : l.any (·.isType n) = false := by
  rw [List.any_eq_false]
  intro o ho hh
  cases o <;> simp only [Obj.isType, beq_iff_eq, Bool.false_eq_true] at hh
  subst hh; exact h _ ho _ (by simp [Obj.names]) hn

private theorem none_isTable {l : List Obj} (h : ∀ o ∈ l, ∀ n ∈ o.names, n ∉ jobTableNames) {n : String} (hn : n ∈ jobTableNames) : l.any (·.isTable n) = false := by
  rw [List.any_eq_false]
  intro o ho hh
  cases o <;> simp only [Obj.isTable, beq_iff_eq, Bool.false_eq_true] at hh
  subst hh; exact h _ ho _ (by simp [Obj.names]) hn

private theorem none_isIndex {l : List Obj} (h : ∀ o ∈ l, ∀ n ∈ o.names, n ∉ jobTableNames) {n : String} (hn : n ∈ jobTableNames) : l.any (·.isIndex n) = false := by
  rw [List.any_eq_false]
  intro o ho hh
  cases o <;> simp only [Obj.isIndex, beq_iff_eq, Bool.false_eq_true] at hh
  subst hh; exact h _ ho _ (by simp [Obj.names]) hn

private theorem none_isFunction {l : List Obj} (h : ∀ o ∈ l, ∀ n ∈ o.names, n ∉ jobTableNames) {n : String} (hn : n ∈ jobTableNames) : l.any (·.isFunction n) = false := by
  rw [List.any_eq_false]
  intro o ho hh
  cases o <;> simp only [Obj.isFunction, beq_iff_eq, Bool.false_eq_true] at hh
  subst hh; exact h _ ho _ (by simp [Obj.names]) hn

private theorem none_isTrigger {l : List Obj} (h : ∀ o ∈ l, ∀ n ∈ o.names, n ∉ jobTableNames) {n t : String} (hn : n ∈ jobTableNames) : l.any (·.isTrigger n t) = false := by
  rw [List.any_eq_false]
  intro o ho hh
  cases o <;> simp only [Obj.isTrigger, Bool.and_eq_true, beq_iff_eq, Bool.false_eq_true] at hh
  obtain ⟨rfl, -⟩ := hh; exact h _ ho _ (by simp [Obj.names]) hn

/-! ## The scripts -/

private theorem create_one {os : List Obj} (hf : ∀ o ∈ os, ∀ n ∈ o.names, n ∉ jobTableNames) (ap : List (Nat × Nat)) {i : Nat} {st : Stmt}
    (hi : upScript[i + 1]? = some st) (hlt : i < 9) :
    st.effect { objects := os ++ jobTableObjects.take i, applied := ap } = some { objects := os ++ jobTableObjects.take (i + 1), applied := ap } ∧
      st ≠ .begin ∧ st ≠ .commit := by
  have h1 := none_isType hf (n := "rexecutor_job_state") (by decide)
  have h2 := none_isTable hf (n := "rexecutor_jobs") (by decide)
  have h3 := none_isIndex hf (n := "rexecutor_job_data_index") (by decide)
  have h4 := none_isIndex hf (n := "rexecutor_job_meta_index") (by decide)
  have h5 := none_isIndex hf (n := "rexecutor_job_uniqueness_index") (by decide)
  have h6 := none_isIndex hf (n := "rexecutor_job_inserted_at_index") (by decide)
  have h7 := none_isFunction hf (n := "rexecutor_new_job_notify") (by decide)
  have h8 := none_isTrigger hf (n := "rexecutor_insert") (t := "rexecutor_jobs") (by decide)
  have h9 := none_isTrigger hf (n := "rexecutor_update") (t := "rexecutor_jobs") (by decide)
  have hk : i = 0 ∨ i = 1 ∨ i = 2 ∨ i = 3 ∨ i = 4 ∨ i = 5 ∨ i = 6 ∨ i = 7 ∨ i = 8 := by omega
  rcases hk with rfl | rfl | rfl | rfl | rfl | rfl | rfl | rfl | rfl <;> cases hi <;> refine ⟨?_, by decide, by decide⟩ <;>
    simp only [Stmt.effect, List.any_append, h1, h2, h3, h4, h5, h6, h7, h8, h9, List.append_assoc, List.all_cons, List.all_nil] <;> rfl

private theorem exec_effect {s : Session} {st : Stmt} {d : Db} (h : st.effect s.view = some d) (hb : st ≠ .begin) (hc : st ≠ .commit) :
    s.exec st = some { durable := if s.inTx then s.durable else d, view := d, inTx := s.inTx } := by
  unfold Session.exec
  split
  · exact absurd rfl hb
  · exact absurd rfl hc
  · rw [h]; rfl

private theorem up_creates {os : List Obj} (hf : ∀ o ∈ os, ∀ n ∈ o.names, n ∉ jobTableNames) (ap : List (Nat × Nat)) (d : Db) (rest : List Stmt) (n i k : Nat)
    (hn : n + i = 9) :
    Session.script { durable := d, view := { objects := os ++ jobTableObjects.take i, applied := ap }, inTx := true }
        ((((upScript.drop (i + 1)).take n) ++ rest).take k) =
      if k ≤ n then (true, d)
      else Session.script { durable := d, view := { objects := os ++ jobTableObjects, applied := ap }, inTx := true } (rest.take (k - n)) := by
  induction n generalizing i k with
  | zero =>
    have : i = 9 := by omega
    subst this
    cases k with
    | zero => simp [Session.script]
    | succ k => simp [jobTableObjects]
  | succ n ih =>
    cases k with
    | zero => simp [Session.script]
    | succ k =>
      have hl : i + 1 < upScript.length := by show i + 1 < 11; omega
      obtain ⟨h1, h2, h3⟩ := create_one hf ap (List.getElem?_eq_getElem hl) (by omega)
      rw [List.drop_eq_getElem_cons hl, List.take_succ_cons, List.cons_append, List.take_succ_cons, Session.script]
      rw [exec_effect (s := { durable := d, view := { objects := os ++ jobTableObjects.take i, applied := ap }, inTx := true }) h1 h2 h3]
      have := ih (i + 1) k (by omega)
      simp only [if_true]
      rw [this]
      simp only [Nat.add_le_add_iff_right, Nat.add_sub_add_right]

private theorem up_at {d : Db} (hf : d.Foreign) (hv : d.applied.any (fun a => a.1 == 20240330221437) = false) (c k : Nat) :
    Session.script { durable := d, view := d } ((jobTable c).statements.take k) =
      (true, if k ≤ 11 then d
        else if k ≤ 12 then { d with objects := d.objects ++ jobTableObjects }
        else { objects := d.objects ++ jobTableObjects, applied := d.applied ++ [(20240330221437, c)] }) := by
  have e : (jobTable c).statements = .begin :: .begin :: (((upScript.drop 1).take 9) ++ [.commit, .record 20240330221437 c, .commit]) := rfl
  rw [e]
  match k with
  | 0 => rfl
  | 1 => rfl
  | k + 2 =>
    simp only [List.take_succ_cons, Session.script, Session.exec]
    have h := up_creates hf d.applied d [.commit, .record 20240330221437 c, .commit] 9 0 k rfl
    simp only [List.take_zero, List.append_nil] at h
    rw [h]
    have hk : k ≤ 9 ∨ k = 10 ∨ k = 11 ∨ k = 12 ∨ 13 ≤ k := by omega
    rcases hk with hk | rfl | rfl | rfl | hk
    · rw [if_pos hk, if_pos (by omega)]
    · rfl
    · simp [Session.script, Session.exec, Stmt.effect, hv]
    · simp [Session.script, Session.exec, Stmt.effect, hv]
    · rw [if_neg (by omega), if_neg (by omega), if_neg (by omega), List.take_of_length_le (by simp; omega)]
      simp [Session.script, Session.exec, Stmt.effect, hv]

private theorem exec_fails {s : Session} {st : Stmt} (h : st.effect s.view = none) (hb : st ≠ .begin) (hc : st ≠ .commit) : s.exec st = none := by
  unfold Session.exec
  split
  · exact absurd rfl hb
  · exact absurd rfl hc
  · rw [h]; rfl

/-- The objects there are, the script fails at the first trigger. -/
private theorem again_creates {d : Db} (hh : ∀ o ∈ jobTableObjects, o ∈ d.objects) (i k : Nat) (hi : i ≤ 7) (rest : List Stmt) :
    Session.script { durable := d, view := d, inTx := true }
        (((upScript.drop (i + 1)).take (7 - i) ++ .createTrigger "rexecutor_insert" "rexecutor_jobs" "rexecutor_new_job_notify" :: rest).take k) =
      (decide (k ≤ 7 - i), d) := by
  have any_of : ∀ (p : Obj → Bool), (∃ o ∈ jobTableObjects, p o = true) → d.objects.any p = true := by
    rintro p ⟨o, ho, hp⟩
    exact List.any_eq_true.mpr ⟨o, hh o ho, hp⟩
  have h1 := any_of (·.isType "rexecutor_job_state") (by decide)
  have h2 := any_of (·.isTable "rexecutor_jobs") (by decide)
  have h3 := any_of (·.isIndex "rexecutor_job_data_index") (by decide)
  have h4 := any_of (·.isIndex "rexecutor_job_meta_index") (by decide)
  have h5 := any_of (·.isIndex "rexecutor_job_uniqueness_index") (by decide)
  have h6 := any_of (·.isIndex "rexecutor_job_inserted_at_index") (by decide)
  have h7 := any_of (·.isFunction "rexecutor_new_job_notify") (by decide)
  have h8 := any_of (·.isTrigger "rexecutor_insert" "rexecutor_jobs") (by decide)
  have step : ∀ j, j < 7 → ∀ st, upScript[j + 1]? = some st → st.effect d = some d ∧ st ≠ .begin ∧ st ≠ .commit := by
    intro j hj st hst
    have hk : j = 0 ∨ j = 1 ∨ j = 2 ∨ j = 3 ∨ j = 4 ∨ j = 5 ∨ j = 6 := by omega
    rcases hk with rfl | rfl | rfl | rfl | rfl | rfl | rfl <;> cases hst <;> refine ⟨?_, by decide, by decide⟩ <;>
      simp only [Stmt.effect, h1, h2, h3, h4, h5, h6, h7, if_true]
  have main : ∀ n i k, n + i = 7 → Session.script { durable := d, view := d, inTx := true }
      (((upScript.drop (i + 1)).take n ++ .createTrigger "rexecutor_insert" "rexecutor_jobs" "rexecutor_new_job_notify" :: rest).take k) = (decide (k ≤ n), d) := by
    intro n
    induction n with
    | zero =>
      intro i k hn
      cases k with
      | zero => simp [Session.script]
      | succ k =>
        simp only [List.take_zero, List.nil_append, List.take_succ_cons, Session.script]
        rw [exec_fails (s := { durable := d, view := d, inTx := true }) (by
          simp only [Stmt.effect, h2, h7, h8]; rfl) (by decide) (by decide)]
        simp
    | succ n ih =>
      intro i k hn
      cases k with
      | zero => simp [Session.script]
      | succ k =>
        have hl : i + 1 < upScript.length := by show i + 1 < 11; omega
        obtain ⟨g1, g2, g3⟩ := step i (by omega) _ (List.getElem?_eq_getElem hl)
        rw [List.drop_eq_getElem_cons hl, List.take_succ_cons, List.cons_append, List.take_succ_cons, Session.script]
        rw [exec_effect (s := { durable := d, view := d, inTx := true }) g1 g2 g3]
        simp only [if_true]
        rw [ih (i + 1) k (by omega)]
        simp
  exact main (7 - i) i k (by omega)

private theorem again_at {d : Db} (hh : ∀ o ∈ jobTableObjects, o ∈ d.objects) (c k : Nat) :
    Session.script { durable := d, view := d } ((jobTable c).statements.take k) = (decide (k ≤ 9), d) := by
  match k with
  | 0 => rfl
  | 1 => rfl
  | k + 2 =>
    have e : (jobTable c).statements = .begin :: .begin :: ((upScript.drop 1).take 7 ++ .createTrigger "rexecutor_insert" "rexecutor_jobs" "rexecutor_new_job_notify" ::
      [.createTrigger "rexecutor_update" "rexecutor_jobs" "rexecutor_new_job_notify", .commit, .record 20240330221437 c, .commit]) := rfl
    rw [e]
    simp only [List.take_succ_cons, Session.script, Session.exec]
    have := again_creates hh 0 k (by omega)
      [.createTrigger "rexecutor_update" "rexecutor_jobs" "rexecutor_new_job_notify", .commit, .record 20240330221437 c, .commit]
    rw [this]
    simp

private theorem run_none {ms : List Migration} {d : Db} (h : d.applied = []) (cut : Option Nat) : Migrate.run ms cut d = runAll cut d ms := by
  simp [Migrate.run, h]

private theorem all_statements (c : Nat) : (jobTable c).statements.take 14 = (jobTable c).statements := rfl

private theorem run_foreign {d : Db} (hf : d.Foreign) (ha : d.applied = []) (c : Nat) (cut : Option Nat) :
    runMigrations c cut d = match cut with
      | none => (.ok, { objects := d.objects ++ jobTableObjects, applied := [(20240330221437, c)] })
      | some k => (if k ≤ 13 then .cut else .ok,
          if k ≤ 11 then d else if k ≤ 12 then { d with objects := d.objects ++ jobTableObjects }
          else { objects := d.objects ++ jobTableObjects, applied := [(20240330221437, c)] }) := by
  have hv : d.applied.any (fun a => a.1 == 20240330221437) = false := by rw [ha]; rfl
  unfold runMigrations
  rw [run_none ha]
  cases cut with
  | none =>
    have h := up_at hf hv c 14
    rw [all_statements] at h
    simp only [runAll, ha, List.find?_nil, h]
    simp
  | some k =>
    have h := up_at hf hv c k
    have hlen : (jobTable c).statements.length = 14 := rfl
    simp only [runAll, ha, List.find?_nil, h, hlen]
    by_cases hk : k ≤ 13
    · rw [if_neg (by omega), if_pos hk]; simp
    · rw [if_pos (by omega), if_neg hk]
      simp

private theorem run_recorded {d : Db} {c : Nat} (ha : d.applied = [(20240330221437, c)]) (cut : Option Nat) : runMigrations c cut d = (.ok, d) := by
  simp [runMigrations, Migrate.run, runAll, ha, jobTable]

private theorem run_stuck {d : Db} (hh : ∀ o ∈ jobTableObjects, o ∈ d.objects) (ha : d.applied = []) (c : Nat) (cut : Option Nat) :
    (runMigrations c cut d).1 ≠ .ok ∧ (runMigrations c cut d).2 = d := by
  unfold runMigrations
  rw [run_none ha]
  cases cut with
  | none =>
    have h := again_at hh c 14
    rw [all_statements] at h
    simp only [runAll, ha, List.find?_nil, h]
    simp
  | some k =>
    have h := again_at hh c k
    have hlen : (jobTable c).statements.length = 14 := rfl
    simp only [runAll, ha, List.find?_nil, h, hlen]
    by_cases hk : k ≤ 9
    · simp only [decide_eq_true hk]; rw [if_neg (by omega)]; simp
    · simp [hk]

/-! ## C131 -/

/-- **C131, the first time.** On a database with nothing of the backend's in it and no migrations recorded, `run_migrations` succeeds: it adds the
type, the table, its indexes, the function and both triggers, leaves everything else as it is, and records the migration. -/
theorem C131_fresh (d : Db) (hf : d.Foreign) (ha : d.applied = []) (c : Nat) :
    runMigrations c none d = (.ok, { objects := d.objects ++ jobTableObjects, applied := [(20240330221437, c)] }) :=
  run_foreign hf ha c none

/-- **C131, again.** Once the migration is recorded, `run_migrations` succeeds and changes nothing, whatever has become of the database. -/
theorem C131_again (d : Db) (c : Nat) (ha : d.applied = [(20240330221437, c)]) (cut : Option Nat) : runMigrations c cut d = (.ok, d) :=
  run_recorded ha cut

private def plain : Stmt → Bool
  | .begin => false
  | .commit => false
  | .record _ _ => false
  | _ => true

private theorem effect_applied {st : Stmt} (h : plain st = true) {d d' : Db} (he : st.effect d = some d') : d'.applied = d.applied := by
  cases st <;> simp only [plain, Bool.false_eq_true] at h <;> simp only [Stmt.effect] at he <;> repeat' split at he
  all_goals first | cases he; done | (cases he; rfl)

private theorem plain_script {l : List Stmt} (hl : ∀ st ∈ l, plain st = true) (rest : List Stmt) {s : Session} (hs : s.inTx = true) :
    Session.script s (l ++ rest) = (false, s.durable) ∨
    ∃ s' : Session, s'.durable = s.durable ∧ s'.inTx = true ∧ s'.view.applied = s.view.applied ∧ Session.script s (l ++ rest) = Session.script s' rest := by
  induction l generalizing s with
  | nil => exact .inr ⟨s, rfl, hs, rfl, rfl⟩
  | cons st l ih =>
    have hst := hl st List.mem_cons_self
    have hb : st ≠ .begin := by rintro rfl; cases hst
    have hc : st ≠ .commit := by rintro rfl; cases hst
    rw [List.cons_append, Session.script]
    cases he : st.effect s.view with
    | none => rw [exec_fails he hb hc]; exact .inl rfl
    | some d =>
      rw [exec_effect he hb hc, hs]
      rcases ih (fun st h => hl st (List.mem_cons_of_mem _ h)) (s := { durable := s.durable, view := d, inTx := true }) rfl with h | ⟨s', h1, h2, h3, h4⟩
      · exact .inl h
      · exact .inr ⟨s', h1, h2, h3.trans (effect_applied hst he), h4⟩

private theorem failed_same {d : Db} (c k : Nat) (hv : d.applied.any (fun a => a.1 == 20240330221437) = false)
    (h : (Session.script { durable := d, view := d } ((jobTable c).statements.take k)).1 = false) :
    (Session.script { durable := d, view := d } ((jobTable c).statements.take k)).2 = d := by
  match k with
  | 0 => rfl
  | 1 => rfl
  | k + 2 =>
    have e : (jobTable c).statements.take (k + 2) = .begin :: .begin :: (((upScript.drop 1).take 9).take k ++
        [Stmt.commit, .record 20240330221437 c, .commit].take (k - 9)) := by
      show List.take (k + 2) (.begin :: .begin :: (((upScript.drop 1).take 9) ++ [.commit, .record 20240330221437 c, .commit])) = _
      rw [List.take_succ_cons, List.take_succ_cons, List.take_append]
      rfl
    rw [e] at h ⊢
    simp only [Session.script, Session.exec] at h ⊢
    rcases plain_script (l := ((upScript.drop 1).take 9).take k) (fun st h => by
        have h := List.mem_of_mem_take h
        exact (by decide : ∀ st ∈ (upScript.drop 1).take 9, plain st = true) st h) ([Stmt.commit, .record 20240330221437 c, .commit].take (k - 9))
      (s := { durable := d, view := d, inTx := true }) rfl with h1 | ⟨s', h1, h2, h3, h4⟩
    · rw [h1]
    · rw [h4] at h ⊢
      simp only at h1 h3
      have hv' : s'.view.applied.any (fun a => a.1 == 20240330221437) = false := by rw [h3]; exact hv
      have hk : k - 9 = 0 ∨ k - 9 = 1 ∨ k - 9 = 2 ∨ 3 ≤ k - 9 := by omega
      rcases hk with hk | hk | hk | hk
      · rw [hk]; exact h1
      · rw [hk] at h; simp [Session.script, Session.exec] at h
      · rw [hk] at h; simp [Session.script, Session.exec, Stmt.effect, hv'] at h
      · rw [List.take_of_length_le (by simpa using hk)] at h; simp [Session.script, Session.exec, Stmt.effect, hv'] at h

/-- **C131, failing.** Whatever is in the database: a run that fails, other than by being cut short, has changed nothing. -/
theorem C131_failed (d : Db) (c : Nat) (cut : Option Nat) (h : (runMigrations c cut d).1 ≠ .ok) (hcut : (runMigrations c cut d).1 ≠ .cut) :
    (runMigrations c cut d).2 = d := by
  unfold runMigrations Migrate.run at *
  split at h
  · rename_i hk
    rw [if_pos hk] at hcut ⊢
    simp only [runAll] at h hcut ⊢
    cases hf : d.applied.find? (fun x => x.1 == (jobTable c).version) with
    | some a => dsimp only; split <;> rfl
    | none =>
      have hv : d.applied.any (fun a => a.1 == 20240330221437) = false := by
        rw [List.any_eq_false]; exact fun x hx => List.find?_eq_none.mp hf x hx
      simp only [hf] at h hcut
      cases cut with
      | none =>
        have h1 := failed_same (d := d) c 14 hv
        rw [all_statements] at h1
        dsimp only at h hcut ⊢
        generalize Session.script { durable := d, view := d } (jobTable c).statements = z at *
        obtain ⟨b, d'⟩ := z
        cases b
        · exact h1 rfl
        · exact absurd rfl h
      | some k =>
        have h1 := failed_same (d := d) c k hv
        dsimp only at h hcut ⊢
        generalize Session.script { durable := d, view := d } ((jobTable c).statements.take k) = z at *
        obtain ⟨b, d'⟩ := z
        cases b
        · exact h1 rfl
        · dsimp only at h hcut
          split at h
          · exact absurd rfl h
          · rename_i hn; rw [if_neg hn] at hcut; exact absurd rfl hcut
  · rename_i hk
    rw [if_neg hk]

/-- A database where the script fails: the function is there as an application's, and a trigger with the name of the backend's on a table with its name. -/
example : (runMigrations 7 none { objects := [.table "rexecutor_jobs" [], .function "log", .trigger "rexecutor_update" "rexecutor_jobs" "log"] }).1 = .failed := by decide

/-- **C131, cut short.** `run_migrations` is cut short, any number of times, wherever that may be but after exactly twelve statements: after the
script's `COMMIT` and before the migration is recorded. Then a run that is not cut short succeeds, with the same result as if there had been none
before. -/
theorem C131_cut_short_partial (d : Db) (hf : d.Foreign) (ha : d.applied = []) (c : Nat) (cuts : List Nat) (hcuts : 12 ∉ cuts) :
    runMigrations c none (cuts.foldl (fun d k => (runMigrations c (some k) d).2) d) =
      (.ok, { objects := d.objects ++ jobTableObjects, applied := [(20240330221437, c)] }) := by
  suffices h : cuts.foldl (fun d k => (runMigrations c (some k) d).2) d = d ∨
      cuts.foldl (fun d k => (runMigrations c (some k) d).2) d = { objects := d.objects ++ jobTableObjects, applied := [(20240330221437, c)] } by
    rcases h with h | h
    · rw [h]; exact run_foreign hf ha c none
    · rw [h]; exact run_recorded rfl none
  have rec_stays : ∀ (cuts : List Nat) (e : Db), e.applied = [(20240330221437, c)] → cuts.foldl (fun d k => (runMigrations c (some k) d).2) e = e := by
    intro cuts
    induction cuts with
    | nil => intro e _; rfl
    | cons k cuts ih => intro e he; rw [List.foldl_cons, run_recorded he]; exact ih e he
  induction cuts with
  | nil => exact .inl rfl
  | cons k cuts ih =>
    have hk : k ≠ 12 := fun h => hcuts (by simp [h])
    rw [List.foldl_cons, run_foreign hf ha c (some k)]
    by_cases h11 : k ≤ 11
    · simp only [if_pos h11]; exact ih fun h => hcuts (List.mem_cons_of_mem _ h)
    · simp only [if_neg h11, if_neg (show ¬ k ≤ 12 by omega)]
      exact .inr (rec_stays _ _ rfl)

/-- **C131 fails.** The script commits the transaction of `sqlx`, so the migration is recorded in another one. If the program ends in between, the
table is there and the migration is not recorded, and from then on `run_migrations` fails, however often it is called: the triggers exist. -/
theorem C131_violated (d : Db) (hf : d.Foreign) (ha : d.applied = []) (c : Nat) (cuts : List (Option Nat)) (cut : Option Nat) :
    let broken : Db := (runMigrations c (some 12) d).2
    broken.objects = d.objects ++ jobTableObjects ∧ broken.applied = [] ∧
    (cuts.foldl (fun d k => (runMigrations c k d).2) broken) = broken ∧
    (runMigrations c cut (cuts.foldl (fun d k => (runMigrations c k d).2) broken)).1 ≠ .ok := by
  intro broken
  have hb : broken = { d with objects := d.objects ++ jobTableObjects } := by
    simp only [broken]; rw [run_foreign hf ha c (some 12)]; simp
  have h1 : broken.applied = [] := by rw [hb]; exact ha
  have h2 : ∀ o ∈ jobTableObjects, o ∈ broken.objects := by rw [hb]; intro o ho; exact List.mem_append_right _ ho
  clear_value broken
  have h3 : cuts.foldl (fun d k => (runMigrations c k d).2) broken = broken := by
    induction cuts with
    | nil => rfl
    | cons k cuts ih => rw [List.foldl_cons, (run_stuck h2 h1 c k).2]; exact ih
  refine ⟨by rw [hb], h1, h3, ?_⟩
  rw [h3]
  exact (run_stuck h2 h1 c cut).1

/-- A database with a table, an index and a trigger of an application. -/
def appDb : Db where
  objects := [.table "orders" [], .index "orders_index" "orders", .function "log", .trigger "orders_log" "orders" "log"]

/-- The hypotheses are met; without its error message, what the second run after the accident says. -/
example : appDb.Foreign ∧ appDb.applied = [] ∧ (runMigrations 7 none (runMigrations 7 (some 12) appDb).2).1 = .failed ∧
    (runMigrations 7 none (runMigrations 7 (some 11) (runMigrations 7 (some 5) appDb).2).2).1 = .ok := by
  refine ⟨?_, by decide, by decide, by decide⟩
  unfold Db.Foreign; decide

private theorem filter_other {l : List Obj} {p : Obj → Bool} (h : l.any p = false) : l.filter (fun o => !p o) = l := by
  rw [List.filter_eq_self]
  intro o ho
  have := List.any_eq_false.mp h o ho
  simpa using this

/-- **C131, undone.** On a database migrated by `run_migrations` the script that undoes the migration succeeds and leaves what there was before. -/
theorem C131_down (d : Db) (hf : d.Foreign) (ap : List (Nat × Nat)) :
    Session.script { durable := { objects := d.objects ++ jobTableObjects, applied := ap }, view := { objects := d.objects ++ jobTableObjects, applied := ap } } downScript =
      (true, { objects := d.objects, applied := ap }) := by
  have a1 := filter_other (none_isTrigger hf (n := "rexecutor_insert") (t := "rexecutor_jobs") (by decide))
  have a2 := filter_other (none_isTrigger hf (n := "rexecutor_update") (t := "rexecutor_jobs") (by decide))
  have a3 := filter_other (none_isFunction hf (n := "rexecutor_new_job_notify") (by decide))
  have a4 := filter_other (none_isIndex hf (n := "rexecutor_job_data_index") (by decide))
  have a5 := filter_other (none_isIndex hf (n := "rexecutor_job_meta_index") (by decide))
  have a6 := filter_other (none_isIndex hf (n := "rexecutor_job_uniqueness_index") (by decide))
  have a7 := filter_other (none_isIndex hf (n := "rexecutor_job_inserted_at_index") (by decide))
  have a9 := filter_other (none_isType hf (n := "rexecutor_job_state") (by decide))
  have a8 : d.objects.filter (fun o => !o.ofTable "rexecutor_jobs") = d.objects := by
    apply filter_other
    rw [List.any_eq_false]
    intro o ho hh
    cases o <;> simp only [Obj.ofTable, beq_iff_eq, Bool.false_eq_true] at hh <;> subst hh <;>
      exact hf _ ho "rexecutor_jobs" (by simp [Obj.names]) (by decide)
  have b1 : d.objects.any (·.uses "rexecutor_new_job_notify") = false := by
    rw [List.any_eq_false]
    intro o ho hh
    cases o <;> simp only [Obj.uses, beq_iff_eq, Bool.false_eq_true] at hh
    subst hh; exact hf _ ho "rexecutor_new_job_notify" (by simp [Obj.names]) (by decide)
  have b2 : d.objects.any (·.hasType "rexecutor_job_state") = false := by
    rw [List.any_eq_false]
    intro o ho hh
    cases o <;> simp only [Obj.hasType, List.contains_iff_mem, Bool.false_eq_true] at hh
    exact hf _ ho "rexecutor_job_state" (by simp [Obj.names, hh]) (by decide)
  have c1 := none_isFunction hf (n := "rexecutor_new_job_notify") (by decide)
  have c2 := none_isType hf (n := "rexecutor_job_state") (by decide)
  have step : ∀ (dur : Db) (l l' : List Obj) (st : Stmt) (rest : List Stmt), st ∈ downScript → st ≠ .begin → st ≠ .commit →
      st.effect { objects := l } = some { objects := l' } →
      Session.script { durable := dur, view := { objects := d.objects ++ l, applied := ap }, inTx := true } (st :: rest) =
        Session.script { durable := dur, view := { objects := d.objects ++ l', applied := ap }, inTx := true } rest := by
    intro dur l l' st rest hm hb hc he
    have : st.effect { objects := d.objects ++ l, applied := ap } = some { objects := d.objects ++ l', applied := ap } := by
      simp only [downScript, List.mem_cons, List.not_mem_nil, or_false] at hm
      rcases hm with rfl | rfl | rfl | rfl | rfl | rfl | rfl | rfl | rfl | rfl | rfl
      · exact absurd rfl hb
      · simp only [Stmt.effect, Option.some.injEq, Db.mk.injEq, and_true] at he
        simp only [Stmt.effect, List.filter_append, a1, he]
      · simp only [Stmt.effect, Option.some.injEq, Db.mk.injEq, and_true] at he
        simp only [Stmt.effect, List.filter_append, a2, he]
      · simp only [Stmt.effect] at he
        simp only [Stmt.effect, List.filter_append, List.any_append, a3, b1, c1, Bool.false_or]
        split at he
        · cases he
        · rename_i h
          simp only [Option.some.injEq, Db.mk.injEq, and_true] at he
          rw [if_neg h, he]
      · simp only [Stmt.effect, Option.some.injEq, Db.mk.injEq, and_true] at he
        simp only [Stmt.effect, List.filter_append, a4, he]
      · simp only [Stmt.effect, Option.some.injEq, Db.mk.injEq, and_true] at he
        simp only [Stmt.effect, List.filter_append, a5, he]
      · simp only [Stmt.effect, Option.some.injEq, Db.mk.injEq, and_true] at he
        simp only [Stmt.effect, List.filter_append, a6, he]
      · simp only [Stmt.effect, Option.some.injEq, Db.mk.injEq, and_true] at he
        simp only [Stmt.effect, List.filter_append, a7, he]
      · simp only [Stmt.effect, Option.some.injEq, Db.mk.injEq, and_true] at he
        simp only [Stmt.effect, List.filter_append, a8, he]
      · simp only [Stmt.effect] at he
        simp only [Stmt.effect, List.filter_append, List.any_append, a9, b2, c2, Bool.false_or]
        split at he
        · cases he
        · rename_i h
          simp only [Option.some.injEq, Db.mk.injEq, and_true] at he
          rw [if_neg h, he]
      · exact absurd rfl hc
    rw [Session.script, exec_effect (s := { durable := dur, view := { objects := d.objects ++ l, applied := ap }, inTx := true }) this hb hc]
    rfl
  have all : ∀ dur, Session.script { durable := dur, view := { objects := d.objects ++ jobTableObjects, applied := ap }, inTx := true }
      (downScript.drop 1) = (true, { objects := d.objects, applied := ap }) := by
    intro dur
    simp only [downScript, List.drop_succ_cons, List.drop_zero]
    rw [step dur _ (jobTableObjects.eraseIdx 7) _ _ (by decide) (by decide) (by decide) (by decide),
      step dur _ (jobTableObjects.take 7) _ _ (by decide) (by decide) (by decide) (by decide),
      step dur _ (jobTableObjects.take 6) _ _ (by decide) (by decide) (by decide) (by decide),
      step dur _ ((jobTableObjects.take 6).eraseIdx 2) _ _ (by decide) (by decide) (by decide) (by decide),
      step dur _ (((jobTableObjects.take 6).eraseIdx 2).eraseIdx 2) _ _ (by decide) (by decide) (by decide) (by decide),
      step dur _ ((((jobTableObjects.take 6).eraseIdx 2).eraseIdx 2).eraseIdx 2) _ _ (by decide) (by decide) (by decide) (by decide),
      step dur _ (jobTableObjects.take 2) _ _ (by decide) (by decide) (by decide) (by decide),
      step dur _ (jobTableObjects.take 1) _ _ (by decide) (by decide) (by decide) (by decide),
      step dur _ [] _ _ (by decide) (by decide) (by decide) (by decide), List.append_nil]
    rfl
  exact all _

example : Session.script { durable := (runMigrations 7 none appDb).2, view := (runMigrations 7 none appDb).2 } downScript =
    (true, { objects := appDb.objects, applied := [(20240330221437, 7)] }) := by decide

/-! ## C132 -/

/-- **C132, exactly.** A migrator stops at once, changing nothing, exactly if the database has a migration on record that is not one of its own – whoever
made it. -/
theorem C132_exactly (ms : List Migration) (cut : Option Nat) (d : Db) :
    ((Migrate.run ms cut d).1 = .unknownVersion ↔ ∃ a ∈ d.applied, ∀ m ∈ ms, m.version ≠ a.1) ∧
    ((Migrate.run ms cut d).1 = .unknownVersion → (Migrate.run ms cut d).2 = d) := by
  have never : ∀ (ms : List Migration) (cut : Option Nat) (d : Db), (runAll cut d ms).1 ≠ .unknownVersion := by
    intro ms
    induction ms with
    | nil => intro cut d h; cases h
    | cons m ms ih =>
      intro cut d
      simp only [runAll]
      repeat' split
      all_goals first | exact ih _ _ | simp
  have hall : (d.applied.all fun a => ms.any fun m => m.version == a.1) = true ↔ ¬ ∃ a ∈ d.applied, ∀ m ∈ ms, m.version ≠ a.1 := by
    simp only [List.all_eq_true, List.any_eq_true, beq_iff_eq]
    constructor
    · rintro h ⟨a, ha, hn⟩
      obtain ⟨m, hm, he⟩ := h a ha
      exact hn m hm he
    · intro h a ha
      refine Classical.byContradiction fun hn => h ⟨a, ha, fun m hm he => hn ⟨m, hm, he⟩⟩
  unfold Migrate.run
  split
  · rename_i h
    exact ⟨⟨fun h' => absurd h' (never _ _ _), fun h' => absurd h' (hall.mp h)⟩, fun h' => absurd h' (never _ _ _)⟩
  · rename_i h
    refine ⟨⟨fun _ => Classical.not_not.mp fun hn => h (hall.mpr hn), fun _ => rfl⟩, fun _ => rfl⟩

/-- **C132 fails**, in either order. An application with migrations of its own has run them: then `run_migrations` fails and does nothing. Or `run_migrations` was
first: then those of the application fail and do nothing. -/
theorem C132_violated (c : Nat) (ms : List Migration) (hms : ∀ m ∈ ms, m.version ≠ 20240330221437) (cut : Option Nat) :
    (∀ d : Db, (∃ m ∈ ms, ∃ a ∈ d.applied, a.1 = m.version) → runMigrations c cut d = (.unknownVersion, d)) ∧
    (∀ d : Db, d.Foreign → d.applied = [] → (runMigrations c none d).1 = .ok ∧
      Migrate.run ms cut (runMigrations c none d).2 = (.unknownVersion, (runMigrations c none d).2)) := by
  have key : ∀ (ms : List Migration) (d : Db), (∃ a ∈ d.applied, ∀ m ∈ ms, m.version ≠ a.1) → Migrate.run ms cut d = (.unknownVersion, d) := by
    intro ms d h
    obtain ⟨h1, h2⟩ := C132_exactly ms cut d
    exact Prod.ext (h1.mpr h) (h2 (h1.mpr h))
  refine ⟨?_, ?_⟩
  · rintro d ⟨m, hm, a, ha, he⟩
    refine key _ d ⟨a, ha, ?_⟩
    intro m' hm'
    simp only [List.mem_singleton] at hm'
    subst hm'
    rw [he]
    exact fun h => hms m hm h.symm
  · intro d hf ha
    rw [C131_fresh d hf ha c]
    exact ⟨rfl, key _ _ ⟨_, List.mem_singleton.mpr rfl, hms⟩⟩

/-- An application with one migration. -/
def appMigrations : List Migration := [{ version := 20230101000000, checksum := 3, script := [.createTable "orders" []] }]

/-- Each works alone; after the other it does not. -/
example : (Migrate.run appMigrations none {}).1 = .ok ∧ (runMigrations 7 none {}).1 = .ok ∧
    (runMigrations 7 none (Migrate.run appMigrations none {}).2).1 = .unknownVersion ∧
    (Migrate.run appMigrations none (runMigrations 7 none {}).2).1 = .unknownVersion ∧
    (Migrate.run (appMigrations ++ [jobTable 7]) none {}).1 = .ok := by decide

end Rexecutor
