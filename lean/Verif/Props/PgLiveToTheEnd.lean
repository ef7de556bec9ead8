import Verif.Props.PgLiveOnTime
import Verif.Props.PgLiveRuns
import Verif.Props.PgToTheEnd

/-!
# C126 on Postgres: a job is finished by a time that can be computed beforehand

Runners with their streams on Postgres (`PgLive`). C119 says that a job is finished some time; here it is said when.
-/

namespace Rexecutor

/-- An execution of job `id` reported a snooze. -/
def PLEv.snoozesJob (id : Int) : PLEv → Bool
  | .reported _ _ ev => ev.snoozes id
  | _ => false

/-- The database handed job `id` out. -/
def PLEv.handsOut (id : Int) (e : PLEv) : Bool :=
  match e.back with
  | some ev => ev.handsOut id
  | none => false

/-- An execution of job `id` reported. -/
def PLEv.reportsOf (id : Int) : PLEv → Bool
  | .reported _ t _ => t.id == id
  | _ => false

private theorem plte_run_append (hash : HashFn) (parses : Parses) (defs : List Runner) (s : PgLive) (as bs : List TPLAct) :
    s.run hash parses defs (as ++ bs) = (s.run hash parses defs as).run hash parses defs bs := by
  induction as generalizing s with
  | nil => rfl
  | cons a as ih => exact ih _

private theorem plte_trace_append (hash : HashFn) (parses : Parses) (defs : List Runner) (s : PgLive) (as bs : List TPLAct) :
    s.trace hash parses defs (as ++ bs) = s.trace hash parses defs as ++ (s.run hash parses defs as).trace hash parses defs bs := by
  induction as generalizing s with
  | nil => rfl
  | cons a as ih => exact congrArg _ (ih _)

private theorem plte_inv_run {hash : HashFn} {parses : Parses} {defs : List Runner} {s : PgLive} (H : PgLiveInv defs s) (as : List TPLAct) :
    PgLiveInv defs (s.run hash parses defs as) := by
  induction as generalizing s with
  | nil => exact H
  | cons a as ih => exact ih (H.act hash parses a.tie a.now a.act)

private theorem plte_plain_init (defs : List Runner) (on : List Nat) : (PgLive.init defs on).plain = PgSys.init defs := by
  simp only [PgLive.plain, PgLive.init, PgSys.init, List.map_map]
  congr 1
  apply List.ext_getElem?
  intro n
  simp only [List.getElem?_map, List.getElem?_zipIdx]
  cases defs[n]? <;> rfl

/-- what happened in the database is visible -/
private theorem back_visible (hash : HashFn) (parses : Parses) (defs : List Runner) (tie : Int → Nat) (now : Time) (s : PgLive) (a : PLAct) :
    (s.act hash parses defs tie now a).1.back = (s.act hash parses defs tie now a).1.visible.bind PSEv.back := by
  cases a with
  | db a => rfl
  | connect => rfl
  | deliver n => rfl
  | reconnect n => rfl
  | fail n => rfl
  | begin r =>
    simp only [PgLive.act]
    split
    · split <;> rfl
    · rfl
  | poll r =>
    simp only [PgLive.act]
    split
    · split
      · split
        · split <;> rfl
        · rfl
      · rfl
    · rfl
  | pend r =>
    simp only [PgLive.act]
    split <;> rfl
  | streamFails r =>
    simp only [PgLive.act]
    split
    · split
      · split
        · split
          · split
            · rename_i rd _ _ _ _ _ _
              cases rd.wait.isLoading <;> rfl
            · rfl
          · rfl
        · rfl
      · rfl
    · rfl
  | finish r i b =>
    simp only [PgLive.act]
    split
    · split
      · split
        · rfl
        · split <;> rfl
      · rfl
    · rfl
  | report r i =>
    simp only [PgLive.act]
    split
    · split
      · split <;> rfl
      · rfl
    · rfl
  | lose r i =>
    simp only [PgLive.act]
    split
    · split <;> rfl
    · rfl
  | tell r =>
    simp only [PgLive.act]
    split <;> rfl
  | kill r =>
    simp only [PgLive.act]
    split <;> rfl
  | step r timer =>
    simp only [PgLive.act]
    split
    · split
      · rename_i n _
        split
        · rename_i rd hrd
          split
          · simp only [PgNet.step, hrd]
            obtain ⟨nd, x, qu, w⟩ := rd
            cases w with
            | ready => rfl
            | looked f => rfl
            | decided c dl =>
              by_cases h : dl ≤ pollDelta <;> simp only [PgNet.streamStep, h, if_true, if_false] <;> rfl
            | loading c dl k =>
              simp only [PgNet.streamStep, PgNet.answer]
              cases hk : s.net.conc.sessions[k]? with
              | none => rfl
              | some ss =>
                cases ss with
                | done res =>
                  cases res with
                  | job o => cases o <;> rfl
                  | _ => rfl
                | _ => rfl
            | asleep c sn dl =>
              simp only [PgNet.streamStep]
              cases qu with
              | nil =>
                simp only
                split <;> split <;> rfl
              | cons t rest =>
                simp only
                split <;> split <;> rfl
          · rfl
        · rfl
      · rfl
    · rfl

section
variable {hash : HashFn} {parses : Parses} {defs : List Runner} {on : List Nat} {id : Int}

local notation "𝓢" l:max => PgLive.run hash parses defs (PgLive.init defs on) l
local notation "𝓗" l:max => PgLive.seen hash parses defs on l

private theorem plte_seen_append (l m : List TPLAct) : ∃ h, 𝓗 (l ++ m) = 𝓗 l ++ h := by
  unfold PgLive.seen
  rw [plte_trace_append, List.filterMap_append]
  exact ⟨_, rfl⟩

private theorem plte_leave {l m : List TPLAct} (A : OthersLeave id (𝓗 (l ++ m))) : OthersLeave id (𝓗 l) := by
  obtain ⟨h, hh⟩ := plte_seen_append (hash := hash) (parses := parses) (defs := defs) (on := on) l m
  rw [hh] at A
  exact fun e he => A e (List.mem_append_left _ he)

private theorem plte_inv (l : List TPLAct) : PgSysInv (𝓗 l) (𝓢 l).plain := by
  obtain ⟨bs, h1, h2⟩ := pgLive_refines hash parses (pgLiveInv_init defs on) l
  rw [plte_plain_init] at h1 h2
  have := pgSysInv hash defs bs
  rw [h1, h2] at this
  exact this

private theorem plte_track {l : List TPLAct} (A : OthersLeave id (𝓗 l)) : PTrack id (𝓗 l) (𝓢 l).plain := by
  obtain ⟨bs, h1, h2⟩ := pgLive_refines hash parses (pgLiveInv_init defs on) l
  rw [plte_plain_init] at h1 h2
  have := pTrack id hash defs bs (by rw [h1]; exact A)
  rw [h1, h2] at this
  exact this

/-- what an action can make of a row -/
private inductive PgTurn (id : Int) (now : Time) (ev : PLEv) (j j' : Row) : Prop where
  | same (h : j' = j) (hout : ev.handsOut id = false) (hrep : ev.reportsOf id = false) (hq : ∀ e, ev.back = some e → e.touches id = false)
  | taken (hout : ev.handsOut id = true) (hw : j.status = .scheduled ∨ j.status = .retryable) (t : Time) (h : j' = j.markExecuting t)
  | reported (r : Nat) (t : Task) (o : Op) (hev : ev = .reported r t (.stmt o .unit)) (ht : t.id = id) (hrep : Reportable t o)
      (hx : j.status = .executing) (hf : t.isFinal = decide (j.attempt = j.maxAttempts)) (h : RowMove now (.stmt o .unit) j j')

private theorem quiet_visible {ev : PLEv} (h : ev.visible = none) : ev.reportsOf id = false := by
  cases ev with
  | reported => cases h
  | _ => rfl

private theorem reports_visible {ev : PLEv} (h : ev.reportsOf id = true) : ∃ r t e, ev = .reported r t e ∧ t.id = id ∧ ev.visible = some (.reported r t e) := by
  cases ev with
  | reported r t e => exact ⟨r, t, e, rfl, by simpa [PLEv.reportsOf] using h, rfl⟩
  | _ => cases h

private theorem plte_turn {l : List TPLAct} {a : TPLAct} (A : OthersLeave id (𝓗 (l ++ [a])))
    (hin : id ∈ pgInserted (dbHistory (𝓗 l))) {row' : Row}
    (hrow' : row' ∈ (𝓢 (l ++ [a])).net.conc.pg.rows) (hid' : row'.id = id) :
    ∃ row ∈ (𝓢 l).net.conc.pg.rows, row.id = id ∧
      PgTurn id a.now ((𝓢 l).act hash parses defs a.tie a.now a.act).1 row row' := by
  have I := plte_inv (hash := hash) (parses := parses) (defs := defs) (on := on) l
  have T := plte_track (plte_leave A)
  have hsim := pgLive_sim (plte_inv_run (hash := hash) (parses := parses) (pgLiveInv_init defs on) l) hash parses a.tie a.now a.act
  have hback := back_visible hash parses defs a.tie a.now (𝓢 l) a.act
  have e' : 𝓢 (l ++ [a]) = ((𝓢 l).act hash parses defs a.tie a.now a.act).2 := by rw [plte_run_append]; rfl
  have hA : ∀ ev, ((𝓢 l).act hash parses defs a.tie a.now a.act).1.visible = some (.db ev) → ev.touches id = true → ev.handsOut id = true := by
    intro ev hv
    refine A ⟨a.now, .db ev⟩ ?_ ev rfl
    unfold PgLive.seen
    rw [plte_trace_append]
    refine List.mem_filterMap.mpr ⟨⟨a.now, ((𝓢 l).act hash parses defs a.tie a.now a.act).1⟩, List.mem_append_right _ List.mem_cons_self, ?_⟩
    simp only [hv, Option.map_some]
  rw [e'] at hrow'
  have hrow' : row' ∈ ((𝓢 l).act hash parses defs a.tie a.now a.act).2.plain.conc.pg.rows := hrow'
  generalize ((𝓢 l).act hash parses defs a.tie a.now a.act).2.plain = s' at *
  generalize ((𝓢 l).act hash parses defs a.tie a.now a.act).1 = ev at *
  show ∃ row ∈ (𝓢 l).plain.conc.pg.rows, _
  generalize (𝓢 l).plain = s at *
  clear e'
  rcases hsim with ⟨hv, rfl⟩ | ⟨b, hv, rfl⟩
  · refine ⟨row', hrow', hid', .same rfl ?_ (quiet_visible hv) (by rw [hback, hv]; intro e he; cases he)⟩
    simp only [PLEv.handsOut, hback, hv, Option.bind_none]
  · have hs := c_step I.own I.reps.reportable hash defs a.tie a.now b id (fun e he => hA e (by rw [hv, he]))
    have hinv : ∀ r t e, (s.step hash defs a.tie a.now b).1 = .reported r t e → _ := fun r t e h => reported_inv h
    rw [hv, Option.bind_some] at hback
    -- nothing happens to the row
    have away : (s.step hash defs a.tie a.now b).1.back = none → ev.handsOut id = false ∧ ev.reportsOf id = false := by
      intro h
      refine ⟨by simp only [PLEv.handsOut, hback, h], ?_⟩
      cases hr : ev.reportsOf id with
      | false => rfl
      | true =>
        obtain ⟨r, t, e, -, -, h2⟩ := reports_visible hr
        rw [hv, Option.some.injEq] at h2
        rw [h2] at h; cases h
    generalize hev : (s.step hash defs a.tie a.now b).1 = v at *
    generalize (s.step hash defs a.tie a.now b).2 = s' at *
    cases hs with
    | away _ _ _ hb hconc => rw [hconc] at hrow'; exact ⟨row', hrow', hid', .same rfl (away hb).1 (away hb).2 (by rw [hback, hb]; intro e he; cases he)⟩
    | other _ _ c _ hb hconc ht =>
      rw [hconc] at hrow'
      rcases untouched_row I.inv I.hist ht hrow' hid' with h | ⟨-, hn, -⟩
      · refine ⟨row', h, hid', .same rfl ?_ ?_ (by rw [hback, hb]; intro e he; cases he; exact ht)⟩
        · simp only [PLEv.handsOut, hback, hb]
          simp only [PgEv.touches, Bool.or_eq_false_iff] at ht
          simp_all
        · cases hr : ev.reportsOf id with
          | false => rfl
          | true =>
            exfalso
            obtain ⟨r, t, e, -, htid, h2⟩ := reports_visible hr
            rw [hv, Option.some.injEq] at h2
            subst h2
            obtain ⟨i, o, hc, he, hnb, -⟩ := reported_inv hev
            have hR := I.reps.reportable r (some i) t o hc
            have hu := report_unit I.inv (hash := hash) (tie := a.tie) (now := a.now) hR h (by rw [hid', htid]) (by rw [← he]; exact hnb)
            rw [hu] at he
            simp only [PSEv.back, Option.some.injEq] at hb
            rw [← hb, he] at ht
            rcases reportable_cases hR with rfl | ⟨e, rfl⟩ | ⟨x, rfl⟩ | ⟨-, e, rfl⟩ | ⟨-, x, e, rfl⟩ <;>
              simp [PgEv.touches, PgEv.handsOut, PgEv.retries, PgEv.snoozes, PgEv.reruns, PgEv.edits, PgEv.finishes, htid] at ht
      · exact absurd hin hn
    | handed k row res _ he hid hconc =>
      obtain ⟨q, hq, hqid, hmem, x, t, -, hrd, hrow⟩ := handedOut_mem I.inv he
      rw [hconc] at hrow'
      have : row' = row := row_unique (I.inv.step hash a.tie a.now _).nodup hrow' hmem (by rw [hid', hid])
      subst this
      refine ⟨q, hq, by rw [hqid, hid'], .taken ?_ (ready_iff'.mp hrd).waiting t hrow⟩
      simp only [PLEv.handsOut, hback, PSEv.back, PgEv.handsOut, hid', BEq.rfl]
    | taken r j st _ hid hhad hconc => rw [hconc] at hrow'; exact ⟨row', hrow', hid', .same rfl (away rfl).1 (away rfl).2 (by rw [hback]; intro e he; cases he)⟩
    | ended r i t j d o _ hid ho hhad hconc => rw [hconc] at hrow'; exact ⟨row', hrow', hid', .same rfl (away rfl).1 (away rfl).2 (by rw [hback]; intro e he; cases he)⟩
    | overflowed r i t j _ hid hhad hconc => rw [hconc] at hrow'; exact ⟨row', hrow', hid', .same rfl (away rfl).1 (away rfl).2 (by rw [hback]; intro e he; cases he)⟩
    | reported r i t o _ hid hhad hnb hconc =>
      rw [hconc] at hrow'
      have hrep := I.reps.reportable r (some i) t o hhad
      rcases (table_step I.inv hash a.tie a.now (.stmt o)).back hrow' with ⟨uc, he, -⟩ | ⟨q, hq, hqid, hm, -⟩
      · rcases stmt_event s.conc hash a.tie a.now o with h1 | h1 | ⟨res', h1⟩ <;> rw [h1] at he <;> cases he
      · have hqi : q.id = id := by rw [hqid, hid']
        have hu := report_unit I.inv (hash := hash) (tie := a.tie) (now := a.now) hrep hq (by rw [hqi, hid]) hnb
        rw [hu] at hm hv
        have hev' : ev = .reported r t (.stmt o .unit) := by
          cases ev with
          | reported => simpa [PLEv.visible] using hv
          | moved x w an e st => cases w <;> cases an <;> cases e <;> cases hv
          | failed x w => cases w <;> cases hv
          | _ => cases hv
        obtain ⟨g1, g2⟩ := T.exec r (some i) _ hhad hid q hq hqi
        exact ⟨q, hq, hqi, .reported r t o hev' hid hrep g1 g2 hm⟩

private theorem plte_later {l : List TPLAct} (h : id ∈ pgInserted (dbHistory (𝓗 l))) (m : List TPLAct) : id ∈ pgInserted (dbHistory (𝓗 (l ++ m))) := by
  obtain ⟨x, hx⟩ := plte_seen_append (hash := hash) (parses := parses) (defs := defs) (on := on) l m
  rw [hx]
  simp only [dbHistory, pgInserted, List.filterMap_append, List.mem_append] at h ⊢
  exact .inl h

private theorem plte_known {l : List TPLAct} {row : Row} (hr : row ∈ (𝓢 l).net.conc.pg.rows) (hid : row.id = id) :
    id ∈ pgInserted (dbHistory (𝓗 l)) := by
  rw [← hid]
  exact (plte_inv (hash := hash) (parses := parses) (defs := defs) (on := on) l).hist.ids row hr

private theorem plte_once {l : List TPLAct} {k k' : Row} (hk : k ∈ (𝓢 l).net.conc.pg.rows) (hk' : k' ∈ (𝓢 l).net.conc.pg.rows)
    (hid : k.id = id) (hid' : k'.id = id) : k = k' :=
  row_unique (plte_inv (hash := hash) (parses := parses) (defs := defs) (on := on) l).inv.nodup hk hk' (by rw [hid, hid'])

/-- a row that is still stored has been stored all the time -/
private theorem plte_before {l m : List TPLAct} (A : OthersLeave id (𝓗 (l ++ m))) (K : id ∈ pgInserted (dbHistory (𝓗 l)))
    (h : ∃ k ∈ (𝓢 (l ++ m)).net.conc.pg.rows, k.id = id) : ∃ k ∈ (𝓢 l).net.conc.pg.rows, k.id = id := by
  induction m generalizing l with
  | nil => simpa using h
  | cons a m ih =>
    have e : l ++ a :: m = l ++ [a] ++ m := by simp
    rw [e] at A h
    obtain ⟨k', h1, h2⟩ := ih A (plte_later K _) h
    obtain ⟨k, h3, h4, -⟩ := plte_turn (plte_leave A) K h1 h2
    exact ⟨k, h3, h4⟩

/-- a row that is over stays over -/
private theorem plte_over {l m : List TPLAct} (A : OthersLeave id (𝓗 (l ++ m))) {k k' : Row}
    (hk : k ∈ (𝓢 l).net.conc.pg.rows) (hid : k.id = id) (ho : k.status.isOver = true)
    (hk' : k' ∈ (𝓢 (l ++ m)).net.conc.pg.rows) (hid' : k'.id = id) : k'.status.isOver = true := by
  induction m generalizing l k with
  | nil =>
    rw [List.append_nil] at hk' A
    rw [← plte_once hk hk' hid hid']; exact ho
  | cons a m ih =>
    have e : l ++ a :: m = l ++ [a] ++ m := by simp
    rw [e] at A hk'
    have K := plte_known hk hid
    obtain ⟨k₁, h1, h2⟩ := plte_before A (plte_later K _) ⟨k', hk', hid'⟩
    obtain ⟨k₀, h3, h4, ht⟩ := plte_turn (plte_leave A) K h1 h2
    have := plte_once hk h3 hid h4
    subst this
    refine ih A h1 h2 ?_ hk'
    cases ht with
    | same h _ _ _ => rw [h]; exact ho
    | taken _ hw _ _ => rcases hw with hw | hw <;> rw [hw] at ho <;> cases ho
    | reported _ _ _ _ _ _ hx _ _ => rw [hx] at ho; cases ho

/-- a row nobody takes or reports stays as it is -/
private theorem plte_stays {l m n : List TPLAct} (A : OthersLeave id (𝓗 (l ++ m ++ n))) {k : Row}
    (hk : k ∈ (𝓢 l).net.conc.pg.rows) (hid : k.id = id)
    (hend : ∃ k ∈ (𝓢 (l ++ m ++ n)).net.conc.pg.rows, k.id = id)
    (hno : (k.status = .scheduled ∨ k.status = .retryable) ∧ (∀ e ∈ (𝓢 l).trace hash parses defs m, e.ev.handsOut id = false) ∨
      k.status = .executing ∧ ∀ e ∈ (𝓢 l).trace hash parses defs m, e.ev.reportsOf id = false) :
    k ∈ (𝓢 (l ++ m)).net.conc.pg.rows := by
  induction m generalizing l with
  | nil => simpa using hk
  | cons a m ih =>
    have e : l ++ a :: m = l ++ [a] ++ m := by simp
    rw [e] at A hend ⊢
    have K := plte_known hk hid
    obtain ⟨k₁, h1, h2⟩ := plte_before (l := l ++ [a]) (m := m ++ n) (by simpa using A) (plte_later K _) (by simpa using hend)
    obtain ⟨k₀, h3, h4, ht⟩ := plte_turn (plte_leave (plte_leave A)) K h1 h2
    have := plte_once hk h3 hid h4
    subst this
    have htr : (𝓢 l).trace hash parses defs (a :: m) = ⟨a.now, ((𝓢 l).act hash parses defs a.tie a.now a.act).1⟩ ::
        (𝓢 (l ++ [a])).trace hash parses defs m := by
      rw [plte_run_append]; rfl
    rw [htr] at hno
    have hsame : k₁ = k := by
      cases ht with
      | same h _ _ _ => exact h
      | taken hout hw _ _ =>
        exfalso
        rcases hno with ⟨-, h⟩ | ⟨h, -⟩
        · have := h _ List.mem_cons_self
          rw [hout] at this; cases this
        · rcases hw with hw | hw <;> rw [h] at hw <;> cases hw
      | reported r t o hev ht' _ hx _ _ =>
        exfalso
        rcases hno with ⟨h | h, -⟩ | ⟨-, h⟩
        · rw [hx] at h; cases h
        · rw [hx] at h; cases h
        · have := h _ List.mem_cons_self
          rw [hev] at this
          simp [PLEv.reportsOf, ht'] at this
    subst hsame
    exact ih A h1 hend (hno.imp (fun h => ⟨h.1, fun e he => h.2 e (List.mem_cons_of_mem _ he)⟩)
        (fun h => ⟨h.1, fun e he => h.2 e (List.mem_cons_of_mem _ he)⟩))

/-- the first event of some kind -/
private theorem plte_first (P : PLEv → Bool) (s : PgLive) (as : List TPLAct) (hc : (as.map (·.now)).Pairwise (· ≤ ·)) {T : Time}
    (h : ∃ e ∈ s.trace hash parses defs as, P e.ev = true ∧ e.now ≤ T) :
    ∃ as₁ a as₂, as = as₁ ++ a :: as₂ ∧ (∀ e ∈ s.trace hash parses defs as₁, P e.ev = false) ∧
      P ((s.run hash parses defs as₁).act hash parses defs a.tie a.now a.act).1 = true ∧ a.now ≤ T := by
  induction as generalizing s with
  | nil => obtain ⟨e, he, -⟩ := h; simp [PgLive.trace] at he
  | cons a as ih =>
    obtain ⟨e, he, hpe, het⟩ := h
    cases hp : P (s.act hash parses defs a.tie a.now a.act).1 with
    | true =>
      refine ⟨[], a, as, rfl, by simp [PgLive.trace], hp, ?_⟩
      rcases List.mem_cons.mp he with rfl | he
      · exact het
      · refine Int.le_trans ?_ het
        have : ∀ (s : PgLive) (as : List TPLAct), e ∈ s.trace hash parses defs as → e.now ∈ as.map (·.now) := by
          intro s as
          induction as generalizing s with
          | nil => intro h; simp [PgLive.trace] at h
          | cons b as ih =>
            intro h
            rcases List.mem_cons.mp h with rfl | h
            · simp
            · exact List.mem_cons_of_mem _ (ih _ h)
        exact List.rel_of_pairwise_cons hc (this _ _ he)
    | false =>
      rcases List.mem_cons.mp he with rfl | he
      · rw [hp] at hpe; cases hpe
      · obtain ⟨as₁, b, as₂, g1, g2, g3⟩ := ih _ (List.Pairwise.of_cons hc) ⟨e, he, hpe, het⟩
        refine ⟨a :: as₁, b, as₂, by rw [g1]; rfl, ?_, g3⟩
        intro e he
        rcases List.mem_cons.mp he with rfl | he
        · exact hp
        · exact g2 e he

private theorem plte_event_at {s : PgLive} {as : List TPLAct} {a : TPLAct} (h : a ∈ as) :
    ∃ e ∈ s.trace hash parses defs as, e.now = a.now := by
  induction as generalizing s with
  | nil => cases h
  | cons b as ih =>
    rcases List.mem_cons.mp h with rfl | h
    · exact ⟨_, List.mem_cons_self, rfl⟩
    · obtain ⟨e, h1, h2⟩ := ih (s := (s.act hash parses defs b.tie b.now b.act).2) h
      exact ⟨e, List.mem_cons_of_mem _ h1, h2⟩

/-- a stream that returns a job has been handed it -/
private theorem plte_returned {s : PgLive} (I : PgLiveInv defs s) {tie : Int → Nat} {now : Time} {a : PLAct} {r i : Nat} {was : PgWait}
    {ans : Option Res} {j : Job} {st : Option Started}
    (h : (s.act hash parses defs tie now a).1 = .moved r was ans (.returned i j) st) : s.plain.carrier r none = some (.loaded j) := by
  cases a with
  | db a => cases h
  | connect => cases h
  | deliver n => cases h
  | reconnect n => cases h
  | fail n => cases h
  | begin r =>
    simp only [PgLive.act] at h
    split at h
    · split at h <;> cases h
    · cases h
  | poll r =>
    simp only [PgLive.act] at h
    split at h
    · split at h
      · split at h
        · split at h <;> cases h
        · cases h
      · cases h
    · cases h
  | pend r =>
    simp only [PgLive.act] at h
    split at h <;> cases h
  | streamFails r =>
    simp only [PgLive.act] at h
    split at h
    · split at h
      · split at h
        · split at h
          · split at h <;> cases h
          · cases h
        · cases h
      · cases h
    · cases h
  | finish r i b =>
    simp only [PgLive.act] at h
    split at h
    · split at h
      · split at h
        · cases h
        · split at h <;> cases h
      · cases h
    · cases h
  | report r i =>
    simp only [PgLive.act] at h
    split at h
    · split at h
      · split at h <;> cases h
      · cases h
    · cases h
  | lose r i =>
    simp only [PgLive.act] at h
    split at h
    · split at h <;> cases h
    · cases h
  | tell r =>
    simp only [PgLive.act] at h
    split at h <;> cases h
  | kill r =>
    simp only [PgLive.act] at h
    split at h <;> cases h
  | step x timer =>
    simp only [PgLive.act] at h
    split at h
    · rename_i d q hd hq
      split at h
      · rename_i n hn
        split at h
        · rename_i rd hrd
          split at h
          · rename_i hpoll
            have key : ∀ i j, (s.net.step hash parses tie now (.stream n timer)).1 = .returned i j →
                ∃ k, rd.wait.session = some k ∧ s.net.conc.sessions[k]? = some (.done (.job (some j))) := by
              intro i j hs
              simp only [PgNet.step, hrd] at hs
              obtain ⟨nd, x, qu, w⟩ := rd
              cases w with
              | ready => cases hs
              | looked f => cases hs
              | decided c dl =>
                simp only [PgNet.streamStep] at hs
                split at hs <;> cases hs
              | loading c dl k =>
                simp only [PgNet.streamStep] at hs
                cases hk : s.net.conc.sessions[k]? with
                | none => rw [hk] at hs; cases hs
                | some ss =>
                  rw [hk] at hs
                  cases ss with
                  | done res =>
                    cases res with
                    | job o =>
                      cases o with
                      | none => cases hs
                      | some j' => cases hs; exact ⟨k, rfl, hk⟩
                    | _ => cases hs
                  | _ => cases hs
              | asleep c sn dl =>
                simp only [PgNet.streamStep] at hs
                cases qu with
                | nil => simp only at hs; split at hs <;> cases hs
                | cons t rest => simp only at hs; split at hs <;> cases hs
            split at h
            · rename_i i' j' he
              simp only [he, PLEv.moved.injEq, NetEv.returned.injEq] at h
              obtain ⟨rfl, -, -, ⟨-, rfl⟩, -⟩ := h
              obtain ⟨k, h1, h2⟩ := key _ _ he
              rw [carrier_of (plain_runner hq)]
              refine slot_loaded (k := k) ?_ h2
              simp only [PgLiveRunner.plain, (I.polls _ q hq hpoll).1, if_true, hn, Option.bind_some, hrd, h1]
            · rename_i he
              simp only [he, PLEv.moved.injEq] at h
              obtain ⟨-, -, -, h, -⟩ := h
              cases h
            · rename_i hne _
              simp only [PLEv.moved.injEq] at h
              exact absurd h.2.2.2.1 (hne _ _)
          · cases h
        · cases h
      · cases h
    · cases h

private theorem plte_nodes_step (hash : HashFn) (parses : Parses) (tie : Int → Nat) (now : Time) (s : PgNet) (a : NetAct) :
    s.nodes.length ≤ (s.step hash parses tie now a).2.nodes.length := by
  cases a with
  | db a => simp [PgNet.step, PgNet.dbStep]
  | connect => simp [PgNet.step]
  | subscribe n x => simp [PgNet.step]
  | deliver n =>
    simp only [PgNet.step, PgNet.deliver]
    split
    · exact Nat.le_refl _
    · split
      · exact Nat.le_refl _
      · split <;> simp
  | reconnect n => simp [PgNet.step]
  | fail n => simp [PgNet.step]
  | stream i timer =>
    simp only [PgNet.step]
    split
    · exact Nat.le_refl _
    · simp only [PgNet.streamStep]
      split
      · exact Nat.le_refl _
      · exact Nat.le_refl _
      · split <;> simp [PgNet.dbStep, PgNet.setWait]
      · split <;> simp [PgNet.dbStep, PgNet.setWait]
      · split
        · split <;> simp [PgNet.setWait]
        · split <;> simp [PgNet.setWait]
  | streamFails i =>
    simp only [PgNet.step]
    split <;> simp [PgNet.setWait]

private theorem plte_nodes (s : PgLive) (as : List TPLAct) : s.net.nodes.length ≤ (s.run hash parses defs as).net.nodes.length := by
  induction as generalizing s with
  | nil => exact Nat.le_refl _
  | cons a as ih =>
    obtain ⟨b, hb⟩ := pgLive_net_step hash parses defs a.tie a.now s a.act
    refine Nat.le_trans ?_ (ih _)
    rw [hb]
    exact plte_nodes_step hash parses a.tie a.now s.net b

private theorem plte_dup {xs ys : List Int} {c : Int} (h : (xs ++ c :: ys).Pairwise (· ≤ ·)) : (xs ++ c :: c :: ys).Pairwise (· ≤ ·) := by
  rw [List.pairwise_append] at h ⊢
  obtain ⟨h1, h2, h3⟩ := h
  rw [List.pairwise_cons] at h2
  refine ⟨h1, List.pairwise_cons.mpr ⟨?_, List.pairwise_cons.mpr h2⟩, ?_⟩
  · intro x hx
    rcases List.mem_cons.mp hx with rfl | hx
    · exact Int.le_refl _
    · exact h2.1 x hx
  · intro x hx y hy
    rcases List.mem_cons.mp hy with rfl | hy
    · exact h3 x hx _ List.mem_cons_self
    · exact h3 x hx y hy

/-- a schedule up to some time -/
private theorem plte_cut (bs : List TPLAct) (hc : (bs.map (·.now)).Pairwise (· ≤ ·)) (T : Time) :
    ∃ c rest, bs = c ++ rest ∧ (∀ b ∈ c, b.now ≤ T) ∧ ∀ b ∈ rest, T < b.now := by
  induction bs with
  | nil => exact ⟨[], [], rfl, by simp, by simp⟩
  | cons b bs ih =>
    by_cases h : b.now ≤ T
    · obtain ⟨c, rest, h1, h2, h3⟩ := ih (List.Pairwise.of_cons hc)
      refine ⟨b :: c, rest, by rw [h1]; rfl, ?_, h3⟩
      intro x hx
      rcases List.mem_cons.mp hx with rfl | hx
      · exact h
      · exact h2 x hx
    · refine ⟨[], b :: bs, rfl, by simp, ?_⟩
      have hlt : T < b.now := by simp only [Time] at *; omega
      intro x hx
      rcases List.mem_cons.mp hx with rfl | hx
      · exact hlt
      · exact Int.lt_of_lt_of_le hlt (List.rel_of_pairwise_cons hc (List.mem_map_of_mem hx))

private theorem pgTime_le (t : Time) : pgTime t ≤ t + 1000 := by
  have h1 : -1000 < Int.tmod (t - epoch2000) 1000 := Int.neg_lt_of_neg_lt (by
    rw [← Int.neg_tmod]; exact Int.tmod_lt_of_pos _ (by decide))
  simp only [pgTime, Time] at *
  omega

/-- a row that waits is handed out in time -/
private theorem plte_handed {ε δ D H : Delta} (hε : 0 ≤ ε) (hδ : 0 ≤ δ) (hD : 0 ≤ D) (hH : 0 ≤ H) (r n i : Nat) (d : Runner)
    (hd : defs[r]? = some d) (p : List TPLAct) (t₀ : Time) (tie : Int → Nat) (N I : Nat) (node node₂ : PgNode)
    (hbegin : ((𝓢 p).act hash parses defs tie t₀ (.begin r)).1 = .begun r)
    (hon : ((𝓢 p).runners[r]?.map (·.node)) = some n) (hi : i = (𝓢 p).net.readers.length)
    (h0 : (𝓢 p).net.nodes[n]? = some node) (hl0 : node.listening = true) (hl2 : node₂.listening = true)
    (as bs : List TPLAct) (t₁ T : Time) (j : Row)
    (hun : ∀ a ∈ as ++ bs, a.act ≠ .reconnect n)
    (h2 : (𝓢 (p ++ ⟨t₀, tie, .begin r⟩ :: as ++ bs)).net.nodes[n]? = some node₂)
    (hc : (t₀ :: (as.map (·.now) ++ t₁ :: bs.map (·.now))).Pairwise (· ≤ ·))
    (hp : PromptPgRunner hash parses ε δ D defs r n t₀ t₀ t₀ (𝓢 (p ++ [⟨t₀, tie, .begin r⟩])) (as ++ bs))
    (hj : j ∈ (𝓢 (p ++ ⟨t₀, tie, .begin r⟩ :: as)).net.conc.pg.rows) (hid : j.id = id)
    (hw : j.status = .scheduled ∨ j.status = .retryable) (hx : j.executor = d.name)
    (A : OthersLeave id (𝓗 (p ++ ⟨t₀, tie, .begin r⟩ :: as ++ bs)))
    (hend : ∃ k ∈ (𝓢 (p ++ ⟨t₀, tie, .begin r⟩ :: as ++ bs)).net.conc.pg.rows, k.id = id)
    (hpass : ∀ bs₁ b bs₂, bs = bs₁ ++ b :: bs₂ →
      ∀ j' ∈ (𝓢 (p ++ ⟨t₀, tie, .begin r⟩ :: as ++ bs₁)).net.conc.pg.rows, j'.id = id → (j'.status = .scheduled ∨ j'.status = .retryable) →
        (∀ ev, ((𝓢 (p ++ ⟨t₀, tie, .begin r⟩ :: as ++ bs₁)).act hash parses defs b.tie b.now b.act).1.back = some ev →
          ev.QueuesBehind j' b.now (𝓢 (p ++ ⟨t₀, tie, .begin r⟩ :: as ++ bs₁)).net.conc.pg.rows) ∧
        (𝓢 (p ++ ⟨t₀, tie, .begin r⟩ :: as ++ bs₁)).net.conc.pg.rows.countP (fun a => decide (RowAhead j' a)) +
          (𝓢 (p ++ ⟨t₀, tie, .begin r⟩ :: as ++ bs₁)).net.conc.sessions.countP (fun s => s.takesFor d.name) ≤ N ∧
        ∀ node, (𝓢 (p ++ ⟨t₀, tie, .begin r⟩ :: as ++ bs₁)).net.nodes[n]? = some node → node.inbox.length ≤ I)
    (hok : ∀ e ∈ (𝓢 (p ++ ⟨t₀, tie, .begin r⟩ :: as)).trace hash parses defs bs, e.ev.errs r = false)
    (hheld : ∀ bs₁ bs₂ (τ : Time), bs = bs₁ ++ bs₂ → t₁ ≤ τ → (∀ b ∈ bs₁, b.now ≤ τ) →
      ∀ j' ∈ (𝓢 (p ++ ⟨t₀, tie, .begin r⟩ :: as ++ bs₁)).net.conc.pg.rows, j'.id = id → (j'.status = .scheduled ∨ j'.status = .retryable) →
        (𝓢 (p ++ ⟨t₀, tie, .begin r⟩ :: as ++ bs₁)).net.otherHolds i id → (∃ b ∈ bs₂, τ + H < b.now) →
        ∃ e ∈ (𝓢 (p ++ ⟨t₀, tie, .begin r⟩ :: as ++ bs₁)).trace hash parses defs bs₂, e.now ≤ τ + H ∧ e.ev.handsOut id = true)
    (hT : T = max j.scheduledAt t₁)
    (hlate : ∃ b ∈ bs, T + I * δ + 15000000 + 10 * ε + D + (N + 1) * (7 * ε + D) + H < b.now) :
    ∃ e ∈ (𝓢 (p ++ ⟨t₀, tie, .begin r⟩ :: as)).trace hash parses defs bs, e.ev.handsOut id = true ∧
      e.now ≤ T + I * δ + 15000000 + 10 * ε + D + (N + 1) * (7 * ε + D) + H := by
  obtain ⟨bl, hbl, hlate⟩ := hlate
  have hcb : (bs.map (·.now)).Pairwise (· ≤ ·) := List.Pairwise.of_cons (List.pairwise_append.mp (List.Pairwise.of_cons hc)).2.1
  have htb : ∀ b ∈ bs, t₁ ≤ b.now := by
    intro b hb
    exact List.rel_of_pairwise_cons (List.pairwise_append.mp (List.Pairwise.of_cons hc)).2.1 (List.mem_map_of_mem hb)
  have hIδ : (0 : Int) ≤ I * δ := Int.mul_nonneg (by omega) hδ
  have hN0 : (0 : Int) ≤ (N + 1) * (7 * ε + D) := Int.mul_nonneg (by omega) (by simp only [Delta] at *; omega)
  obtain ⟨c, rest, hcut, hcT, hrT⟩ := plte_cut bs hcb T
  have hTt : t₁ ≤ T := by simp only [Time] at *; omega
  have hTj : j.scheduledAt ≤ T := by simp only [Time] at *; omega
  -- handed out within a part of the schedule
  have part : ∀ bs₁ bs₂, bs = bs₁ ++ bs₂ → (∀ b ∈ bs₁, b.now ≤ T + I * δ + 15000000 + 10 * ε + D + (N + 1) * (7 * ε + D)) →
      (∃ e ∈ (𝓢 (p ++ ⟨t₀, tie, .begin r⟩ :: as)).trace hash parses defs bs, e.ev.handsOut id = true ∧
        e.now ≤ T + I * δ + 15000000 + 10 * ε + D + (N + 1) * (7 * ε + D) + H) ∨
      ((∀ e ∈ (𝓢 (p ++ ⟨t₀, tie, .begin r⟩ :: as)).trace hash parses defs bs₁, e.ev.handsOut id = false) ∧
        j ∈ (𝓢 (p ++ ⟨t₀, tie, .begin r⟩ :: as ++ bs₁)).net.conc.pg.rows) := by
    intro bs₁ bs₂ hb hle
    by_cases h : ∃ e ∈ (𝓢 (p ++ ⟨t₀, tie, .begin r⟩ :: as)).trace hash parses defs bs₁, e.ev.handsOut id = true
    · left
      obtain ⟨e, he, hout⟩ := h
      refine ⟨e, by rw [hb, plte_trace_append]; exact List.mem_append_left _ he, hout, ?_⟩
      have : ∀ (s : PgLive) (as : List TPLAct), e ∈ s.trace hash parses defs as → ∃ a ∈ as, e.now = a.now := by
        intro s as
        induction as generalizing s with
        | nil => intro h; simp [PgLive.trace] at h
        | cons b as ih =>
          intro h
          rcases List.mem_cons.mp h with rfl | h
          · exact ⟨b, by simp, rfl⟩
          · obtain ⟨a, h1, h2⟩ := ih _ h
            exact ⟨a, List.mem_cons_of_mem _ h1, h2⟩
      obtain ⟨a, h1, h2⟩ := this _ _ he
      have := hle a h1
      rw [h2]
      simp only [Time, Delta] at *; omega
    · right
      have hno : ∀ e ∈ (𝓢 (p ++ ⟨t₀, tie, .begin r⟩ :: as)).trace hash parses defs bs₁, e.ev.handsOut id = false := by
        intro e he
        cases hh : e.ev.handsOut id with
        | false => rfl
        | true => exact absurd ⟨e, he, hh⟩ h
      subst hb
      exact ⟨hno, plte_stays (n := bs₂) (by simpa using A) hj hid (by simpa using hend) (.inl ⟨hw, hno⟩)⟩
  -- somebody else has locked it
  have held : ∀ bs₁ bs₂ (τ : Time), bs = bs₁ ++ bs₂ → t₁ ≤ τ → (∀ b ∈ bs₁, b.now ≤ τ) →
      τ ≤ T + I * δ + 15000000 + 10 * ε + D + (N + 1) * (7 * ε + D) → j ∈ (𝓢 (p ++ ⟨t₀, tie, .begin r⟩ :: as ++ bs₁)).net.conc.pg.rows →
      (𝓢 (p ++ ⟨t₀, tie, .begin r⟩ :: as ++ bs₁)).net.otherHolds i id →
      ∃ e ∈ (𝓢 (p ++ ⟨t₀, tie, .begin r⟩ :: as)).trace hash parses defs bs, e.ev.handsOut id = true ∧
        e.now ≤ T + I * δ + 15000000 + 10 * ε + D + (N + 1) * (7 * ε + D) + H := by
    intro bs₁ bs₂ τ hb h1 hle hτ hjm hlock
    obtain ⟨e, he, het, hout⟩ := hheld bs₁ bs₂ τ hb h1 hle j hjm hid hw hlock ⟨bl, by
      rw [hb] at hbl
      rcases List.mem_append.mp hbl with h | h
      · have := hle bl h
        simp only [Time, Delta] at *; omega
      · exact h, by simp only [Time, Delta] at *; omega⟩
    refine ⟨e, ?_, hout, by simp only [Time, Delta] at *; omega⟩
    rw [hb, plte_trace_append, ← plte_run_append]
    exact List.mem_append_right _ he
  rcases part c rest hcut (fun b hb => by have := hcT b hb; simp only [Time, Delta] at *; omega) with h | ⟨hno, hjc⟩
  · exact h
  by_cases hlock : (𝓢 (p ++ ⟨t₀, tie, .begin r⟩ :: as ++ c)).net.otherHolds i id
  · exact held c rest T hcut hTt hcT (by simp only [Time, Delta] at *; omega) hjc hlock
  -- the rest of the schedule
  have hblr : bl ∈ rest := by
    rw [hcut] at hbl
    rcases List.mem_append.mp hbl with h | h
    · have := hcT bl h
      simp only [Time, Delta] at *; omega
    · exact h
  obtain ⟨b₀, rest', hrest⟩ : ∃ b₀ rest', rest = b₀ :: rest' := by
    cases rest with
    | nil => cases hblr
    | cons x y => exact ⟨x, y, rfl⟩
  obtain ⟨node₁, h1⟩ : ∃ node₁, (𝓢 (p ++ ⟨t₀, tie, .begin r⟩ :: as ++ c)).net.nodes[n]? = some node₁ := by
    have h3 := (List.getElem?_eq_some_iff.mp h0).1
    have h4 := plte_nodes (hash := hash) (parses := parses) (defs := defs) (𝓢 p) (⟨t₀, tie, .begin r⟩ :: as ++ c)
    rw [← plte_run_append, ← List.append_assoc] at h4
    exact ⟨_, List.getElem?_eq_getElem (Nat.lt_of_lt_of_le h3 h4)⟩
  have eL : p ++ ⟨t₀, tie, .begin r⟩ :: as ++ c = p ++ ⟨t₀, tie, .begin r⟩ :: (as ++ c) := by simp
  obtain ⟨-, hcount, hinbox⟩ := hpass c b₀ rest' (by rw [hcut, hrest]) j hjc hid hw
  have hinbox := hinbox node₁ h1
  obtain ⟨M, hM⟩ : ∃ M, (𝓢 (p ++ ⟨t₀, tie, .begin r⟩ :: as ++ c)).net.conc.pg.rows.countP (fun a => decide (RowAhead j a)) +
      (𝓢 (p ++ ⟨t₀, tie, .begin r⟩ :: as ++ c)).net.conc.sessions.countP (fun s => s.takesFor d.name) = M := ⟨_, rfl⟩
  rw [hM] at hcount
  have hMle : ((M : Int) + 1) * (7 * ε + D) ≤ (N + 1) * (7 * ε + D) :=
    Int.mul_le_mul_of_nonneg_right (by omega) (by simp only [Delta] at *; omega)
  have hIle : (node₁.inbox.length : Int) * δ ≤ I * δ := Int.mul_le_mul_of_nonneg_right (by omega) hδ
  have hc' : (t₀ :: ((as ++ c).map (·.now) ++ T :: rest.map (·.now))).Pairwise (· ≤ ·) := by
    rw [hcut] at hc
    rw [List.map_append] at hc ⊢
    rw [List.pairwise_cons] at hc ⊢
    obtain ⟨q1, q2⟩ := hc
    rw [List.pairwise_append] at q2
    obtain ⟨q3, q4, q5⟩ := q2
    rw [List.pairwise_cons] at q4
    obtain ⟨q6, q7⟩ := q4
    rw [List.pairwise_append] at q7
    obtain ⟨q8, q9, q10⟩ := q7
    have hrl : ∀ x ∈ rest.map (·.now), T ≤ x := by
      intro x hx
      obtain ⟨b, hb, rfl⟩ := List.mem_map.mp hx
      exact Int.le_of_lt (hrT b hb)
    have hcl : ∀ x ∈ c.map (·.now), x ≤ T := by
      intro x hx
      obtain ⟨b, hb, rfl⟩ := List.mem_map.mp hx
      exact hcT b hb
    have hal : ∀ x ∈ as.map (·.now), x ≤ T := fun x hx => Int.le_trans (q5 x hx t₁ (by simp)) hTt
    have h0l : t₀ ≤ T := Int.le_trans (q1 t₁ (by simp)) hTt
    refine ⟨?_, ?_⟩
    · intro x hx
      rcases List.mem_append.mp hx with hx | hx
      · rcases List.mem_append.mp hx with hx | hx
        · exact q1 x (by simp [hx])
        · exact q1 x (List.mem_append_right _ (List.mem_cons_of_mem _ (List.mem_append_left _ hx)))
      · rcases List.mem_cons.mp hx with rfl | hx
        · exact h0l
        · exact Int.le_trans h0l (hrl x hx)
    · rw [List.pairwise_append]
      refine ⟨?_, List.pairwise_cons.mpr ⟨hrl, q9⟩, ?_⟩
      · rw [List.pairwise_append]
        exact ⟨q3, q8, fun x hx y hy => q5 x hx y (List.mem_cons_of_mem _ (List.mem_append_left _ hy))⟩
      · intro x hx y hy
        have hxT : x ≤ T := by
          rcases List.mem_append.mp hx with hx | hx
          · exact hal x hx
          · exact hcl x hx
        rcases List.mem_cons.mp hy with rfl | hy
        · exact hxT
        · exact Int.le_trans hxT (hrl y hy)
  subst hcut
  obtain ⟨bs₁, b, bs₂, g1, g2, g3⟩ := C124_on_postgres hash parses hε hδ hD defs on r n i d hd p (as ++ c) rest t₀ T tie j node node₁ node₂
    hbegin hon hi h0 hl0 (by rw [List.append_assoc]; exact hun) (by rw [← eL]; exact h1) (by rw [← eL, List.append_assoc]; exact h2) hl2 hc'
    (by rw [List.append_assoc]; exact hp) (by rw [← eL]; exact hjc) hw hx hTj (by rw [← eL, hid]; exact hlock)
    (by
      intro bs₁ b bs₂ hb hq ev hev
      have hq' : ∀ e ∈ (𝓢 (p ++ ⟨t₀, tie, .begin r⟩ :: as)).trace hash parses defs (c ++ bs₁), e.ev.handsOut id = false := by
        intro e he
        rw [plte_trace_append, ← plte_run_append] at he
        rcases List.mem_append.mp he with he | he
        · exact hno e he
        · rw [eL] at he
          have := hq e he
          unfold PLEv.handsOut
          split
          · rename_i ev' hev'
            rw [← hid]; exact this ev' hev'
          · rfl
      subst hb
      have hjm := plte_stays (m := c ++ bs₁) (n := b :: bs₂) (by simpa using A) hj hid (by simpa using hend) (.inl ⟨hw, hq'⟩)
      have eM : p ++ ⟨t₀, tie, .begin r⟩ :: (as ++ c) ++ bs₁ = p ++ ⟨t₀, tie, .begin r⟩ :: as ++ (c ++ bs₁) := by simp
      rw [eM] at hev ⊢
      refine ⟨?_, (hpass (c ++ bs₁) b bs₂ (by simp) j hjm hid hw).1 ev hev⟩
      intro htouch
      have eN : p ++ ⟨t₀, tie, .begin r⟩ :: as ++ (c ++ b₀ :: rest') = p ++ ⟨t₀, tie, .begin r⟩ :: as ++ (c ++ bs₁) ++ [b] ++ bs₂ := by
        rw [← hrest]; simp
      rw [hrest, eN] at A hend
      obtain ⟨k', hk', hkid'⟩ := plte_before A (plte_later (plte_known hjm hid) [b]) hend
      obtain ⟨k, hk, hkid, hturn⟩ := plte_turn (plte_leave A) (plte_known hjm hid) hk' hkid'
      have := plte_once hjm hk hid hkid
      subst this
      rw [hid] at htouch ⊢
      cases hturn with
      | same _ _ _ hqu => rw [hqu ev hev] at htouch; cases htouch
      | taken hout _ _ _ =>
        unfold PLEv.handsOut at hout
        rw [hev] at hout
        exact hout
      | reported _ _ _ _ _ _ hxx _ _ => rcases hw with hw | hw <;> rw [hw] at hxx <;> cases hxx)
    (by
      intro e he
      refine hok e ?_
      rw [plte_trace_append, ← plte_run_append, eL]
      exact List.mem_append_right _ he)
    M (by rw [← eL]; exact hM) _ rfl ⟨bl, hblr, by simp only [Time, Delta] at *; omega⟩
  subst g1
  have hbT : b.now ≤ T + I * δ + 15000000 + 10 * ε + D + (N + 1) * (7 * ε + D) := by simp only [Time, Delta] at *; omega
  have eM : p ++ ⟨t₀, tie, .begin r⟩ :: (as ++ c) ++ bs₁ = p ++ ⟨t₀, tie, .begin r⟩ :: as ++ (c ++ bs₁) := by simp
  have hle : ∀ x ∈ c ++ bs₁ ++ [b], x.now ≤ b.now := by
    intro x hx
    rw [show c ++ (bs₁ ++ b :: bs₂) = c ++ bs₁ ++ b :: bs₂ by simp, List.map_append] at hcb
    rcases List.mem_append.mp hx with hx | hx
    · exact (List.pairwise_append.mp hcb).2.2 _ (List.mem_map_of_mem hx) b.now (by simp)
    · rw [List.mem_singleton.mp hx]; exact Int.le_refl _
  rcases part (c ++ bs₁) (b :: bs₂) (by simp) (fun x hx => Int.le_trans (hle x (List.mem_append_left _ hx)) hbT) with h | ⟨hno₁, hjm⟩
  · exact h
  rcases part (c ++ bs₁ ++ [b]) bs₂ (by simp) (fun x hx => Int.le_trans (hle x hx) hbT) with h | ⟨-, hjb⟩
  · exact h
  rcases g3 with ⟨was, ans, jb, g3, g4⟩ | g3
  · exfalso
    rw [eM] at g3
    have hcar := plte_returned (plte_inv_run (hash := hash) (parses := parses) (pgLiveInv_init defs on) _) g3
    have A' : OthersLeave id (𝓗 (p ++ ⟨t₀, tie, .begin r⟩ :: as ++ (c ++ bs₁))) := by
      refine plte_leave (m := b :: bs₂) ?_
      simpa using A
    have := ((plte_track A').exec r none _ hcar (by rw [← hid, ← g4]; rfl) j hjm hid).1
    rcases hw with hw | hw <;> rw [hw] at this <;> cases this
  · have e' : (𝓢 (p ++ ⟨t₀, tie, .begin r⟩ :: as ++ (c ++ bs₁ ++ [b]))) =
        ((𝓢 (p ++ ⟨t₀, tie, .begin r⟩ :: (as ++ c) ++ bs₁)).act hash parses defs b.tie b.now b.act).2 := by
      rw [eM, ← List.append_assoc, plte_run_append]; rfl
    rw [← e', hid] at g3
    exact held (c ++ bs₁ ++ [b]) bs₂ b.now (by simp) (htb b (by simp)) hle hbT hjb g3

/-- the row after a successful report -/
private theorem plte_move {now : Time} {t : Task} {o : Op} {row row' : Row} (hid : row.id = t.id) (h : RowMove now (.stmt o .unit) row row') :
    (o = .complete t.id → row'.status.isOver = true) ∧ (∀ e, o = .cancelled t.id e → row'.status.isOver = true) ∧
    (∀ e, o = .discarded t.id e → row'.status.isOver = true) ∧ (∀ x, o = .snoozed t.id x → row' = row.markSnoozed x) ∧
    (∀ x e, o = .retryable t.id x e → row' = row.markRetryable now x e) := by
  refine ⟨?_, fun e => ?_, fun e => ?_, fun x => ?_, fun x e => ?_⟩ <;> rintro rfl <;> cases h <;>
    simp_all [PgEv.touches, PgEv.handsOut, PgEv.retries, PgEv.snoozes, PgEv.reruns, PgEv.edits, PgEv.finishes,
      Row.markComplete, Row.markDiscarded, Row.markCancelled, JobStatus.isOver]

/-- one attempt after the other -/
private theorem plte_rounds {ε δ D H B Δ : Delta} (hε : 0 ≤ ε) (hδ : 0 ≤ δ) (hD : 0 ≤ D) (hH : 0 ≤ H) (hB : 0 ≤ B) (hΔ : 0 ≤ Δ) (r n i : Nat)
    (d : Runner) (hd : defs[r]? = some d) (p : List TPLAct) (t₀ : Time) (tie : Int → Nat) (N I : Nat) (node node₂ : PgNode) (Tend : Time)
    (hbegin : ((𝓢 p).act hash parses defs tie t₀ (.begin r)).1 = .begun r)
    (hon : ((𝓢 p).runners[r]?.map (·.node)) = some n) (hi : i = (𝓢 p).net.readers.length)
    (h0 : (𝓢 p).net.nodes[n]? = some node) (hl0 : node.listening = true) (hl2 : node₂.listening = true) (g : Nat) :
    ∀ (as bs : List TPLAct) (t₁ : Time) (j : Row)
    (_ : ∀ a ∈ as ++ bs, a.act ≠ .reconnect n)
    (_ : (𝓢 (p ++ ⟨t₀, tie, .begin r⟩ :: as ++ bs)).net.nodes[n]? = some node₂)
    (_ : (t₀ :: (as.map (·.now) ++ t₁ :: bs.map (·.now))).Pairwise (· ≤ ·))
    (_ : PromptPgRunner hash parses ε δ D defs r n t₀ t₀ t₀ (𝓢 (p ++ [⟨t₀, tie, .begin r⟩])) (as ++ bs))
    (_ : j ∈ (𝓢 (p ++ ⟨t₀, tie, .begin r⟩ :: as)).net.conc.pg.rows) (_ : j.id = id)
    (_ : j.status = .scheduled ∨ j.status = .retryable) (_ : j.executor = d.name) (_ : j.attempt < j.maxAttempts)
    (_ : OthersLeave id (𝓗 (p ++ ⟨t₀, tie, .begin r⟩ :: as ++ bs)))
    (_ : ∀ bs₁ b bs₂, bs = bs₁ ++ b :: bs₂ →
      ∀ j' ∈ (𝓢 (p ++ ⟨t₀, tie, .begin r⟩ :: as ++ bs₁)).net.conc.pg.rows, j'.id = id → (j'.status = .scheduled ∨ j'.status = .retryable) →
        (∀ ev, ((𝓢 (p ++ ⟨t₀, tie, .begin r⟩ :: as ++ bs₁)).act hash parses defs b.tie b.now b.act).1.back = some ev →
          ev.QueuesBehind j' b.now (𝓢 (p ++ ⟨t₀, tie, .begin r⟩ :: as ++ bs₁)).net.conc.pg.rows) ∧
        (𝓢 (p ++ ⟨t₀, tie, .begin r⟩ :: as ++ bs₁)).net.conc.pg.rows.countP (fun a => decide (RowAhead j' a)) +
          (𝓢 (p ++ ⟨t₀, tie, .begin r⟩ :: as ++ bs₁)).net.conc.sessions.countP (fun s => s.takesFor d.name) ≤ N ∧
        ∀ node, (𝓢 (p ++ ⟨t₀, tie, .begin r⟩ :: as ++ bs₁)).net.nodes[n]? = some node → node.inbox.length ≤ I)
    (_ : ∀ e ∈ (𝓢 (p ++ ⟨t₀, tie, .begin r⟩ :: as)).trace hash parses defs bs, e.ev.errs r = false)
    (_ : ∀ bs₁ bs₂ (τ : Time), bs = bs₁ ++ bs₂ → t₁ ≤ τ → (∀ b ∈ bs₁, b.now ≤ τ) →
      ∀ j' ∈ (𝓢 (p ++ ⟨t₀, tie, .begin r⟩ :: as ++ bs₁)).net.conc.pg.rows, j'.id = id → (j'.status = .scheduled ∨ j'.status = .retryable) →
        (𝓢 (p ++ ⟨t₀, tie, .begin r⟩ :: as ++ bs₁)).net.otherHolds i id → (∃ b ∈ bs₂, τ + H < b.now) →
        ∃ e ∈ (𝓢 (p ++ ⟨t₀, tie, .begin r⟩ :: as ++ bs₁)).trace hash parses defs bs₂, e.now ≤ τ + H ∧ e.ev.handsOut id = true)
    (_ : ∀ es₁ e es₂, (𝓢 (p ++ ⟨t₀, tie, .begin r⟩ :: as)).trace hash parses defs bs = es₁ ++ e :: es₂ → e.ev.handsOut id = true →
      (∃ e' ∈ es₂, e.now + B < e'.now) → ∃ e' ∈ es₂, e'.now ≤ e.now + B ∧ e'.ev.reportsOf id = true)
    (_ : ∀ e ∈ (𝓢 (p ++ ⟨t₀, tie, .begin r⟩ :: as)).trace hash parses defs bs, ∀ r' t ev next, e.ev = .reported r' t ev →
      (ev = .stmt (.snoozed id next) .unit ∨ ∃ x, ev = .stmt (.retryable id next x) .unit) → next ≤ e.now + Δ)
    (_ : j.maxAttempts - j.attempt +
      ((𝓢 (p ++ ⟨t₀, tie, .begin r⟩ :: as)).trace hash parses defs bs).countP (fun e => e.ev.snoozesJob id) ≤ g)
    (_ : max j.scheduledAt t₁ + g * (I * δ + 15001000 + 10 * ε + D + (N + 1) * (7 * ε + D) + H + B + Δ) ≤ Tend)
    (_ : ∃ b ∈ bs, Tend < b.now),
    ∀ j' ∈ (𝓢 (p ++ ⟨t₀, tie, .begin r⟩ :: as ++ bs)).net.conc.pg.rows, j'.id = id → j'.status.isOver = true := by
  induction g with
  | zero =>
    intro as bs t₁ j _ _ _ _ _ _ _ _ hm _ _ _ _ _ _ hn _ _
    exfalso
    omega
  | succ g ih =>
    intro as bs t₁ j hun h2 hc hp hj hid hw hx hm A hpass hok hheld hrun hdelay hn hT hlate jf hjf hidf
    obtain ⟨bl, hbl, hlate⟩ := hlate
    have hIδ : (0 : Int) ≤ I * δ := Int.mul_nonneg (by omega) hδ
    have hN0 : (0 : Int) ≤ (N + 1) * (7 * ε + D) := Int.mul_nonneg (by omega) (by simp only [Delta] at *; omega)
    -- how long a round takes
    obtain ⟨Y, hY⟩ : ∃ Y : Int, Y = I * δ + 15000000 + 10 * ε + D + (N + 1) * (7 * ε + D) + H := ⟨_, rfl⟩
    have hY0 : 0 ≤ Y := by simp only [Delta] at *; omega
    obtain ⟨Z, hZ⟩ : ∃ Z : Int, Z = I * δ + 15001000 + 10 * ε + D + (N + 1) * (7 * ε + D) + H + B + Δ := ⟨_, rfl⟩
    have hYZ : Z = Y + 1000 + B + Δ := by simp only [Delta] at *; omega
    have hZ0 : 0 ≤ Z := by simp only [Delta] at *; omega
    have hnZ : (0 : Int) ≤ g * Z := Int.mul_nonneg (by omega) hZ0
    rw [← hZ] at hT
    have hT' : max j.scheduledAt t₁ + Z + g * Z ≤ Tend := by
      have : ((g + 1 : Nat) : Int) * Z = g * Z + Z := by rw [Int.natCast_add, Int.add_mul]; simp
      rw [this] at hT
      simp only [Time] at *; omega
    have hend : ∃ k ∈ (𝓢 (p ++ ⟨t₀, tie, .begin r⟩ :: as ++ bs)).net.conc.pg.rows, k.id = id := ⟨jf, hjf, hidf⟩
    have hcb : (bs.map (·.now)).Pairwise (· ≤ ·) := List.Pairwise.of_cons (List.pairwise_append.mp (List.Pairwise.of_cons hc)).2.1
    have htb : ∀ b ∈ bs, t₁ ≤ b.now := by
      intro b hb
      exact List.rel_of_pairwise_cons (List.pairwise_append.mp (List.Pairwise.of_cons hc)).2.1 (List.mem_map_of_mem hb)
    -- the first time it is handed out
    obtain ⟨e₀, he₀, hout₀, het₀⟩ := plte_handed hε hδ hD hH r n i d hd p t₀ tie N I node node₂ hbegin hon hi h0 hl0 hl2 as bs t₁ _ j
      hun h2 hc hp hj hid hw hx A hend hpass hok hheld rfl ⟨bl, hbl, by simp only [Time, Delta] at *; omega⟩
    obtain ⟨b₁, b, b₂, hb, hno₁, hst, hbt⟩ := plte_first (PLEv.handsOut id) _ bs hcb ⟨e₀, he₀, hout₀, het₀⟩
    have hbt : b.now ≤ max j.scheduledAt t₁ + Y := by simp only [Time, Delta] at *; omega
    subst hb
    obtain ⟨l, hl⟩ : ∃ l, l = p ++ ⟨t₀, tie, .begin r⟩ :: as := ⟨_, rfl⟩
    rw [← hl] at hj A hpass hok hheld hrun hdelay hn hjf hend h2 hst hno₁
    rw [← plte_run_append] at hst
    have hj₁ := plte_stays (m := b₁) (n := b :: b₂) (by simpa using A) hj hid (by simpa using hend) (.inl ⟨hw, hno₁⟩)
    have A₂ : OthersLeave id (𝓗 (l ++ b₁ ++ [b] ++ b₂)) := by simpa using A
    have K₁ := plte_known hj₁ hid
    obtain ⟨j₂, hj₂, hid₂⟩ := plte_before A₂ (plte_later K₁ _) (by simpa using hend)
    obtain ⟨j₀, h3, h4, hturn⟩ := plte_turn (plte_leave A₂) K₁ hj₂ hid₂
    have := plte_once h3 hj₁ h4 hid
    subst this
    cases hturn with
    | same _ h _ _ => rw [h] at hst; cases hst
    | reported _ _ _ _ _ _ hx' _ _ => rcases hw with hw | hw <;> rw [hw] at hx' <;> cases hx'
    | taken _ _ tt hj₂eq =>
    -- its execution reports in time
    have htr : (𝓢 l).trace hash parses defs (b₁ ++ b :: b₂) = (𝓢 l).trace hash parses defs b₁ ++
        ⟨b.now, ((𝓢 (l ++ b₁)).act hash parses defs b.tie b.now b.act).1⟩ :: (𝓢 (l ++ b₁ ++ [b])).trace hash parses defs b₂ := by
      rw [plte_trace_append]
      simp only [plte_run_append]
      rfl
    have hafter : ∀ y ∈ b₁ ++ b :: b₂, b.now < y.now → y ∈ b₂ := by
      intro y hy hlt
      rcases List.mem_append.mp hy with hy | hy
      · rw [List.map_append] at hcb
        have := (List.pairwise_append.mp hcb).2.2 _ (List.mem_map_of_mem hy) b.now (by simp)
        simp only [Time] at *; omega
      · rcases List.mem_cons.mp hy with rfl | hy
        · simp only [Time] at *; omega
        · exact hy
    have hcb₂ : (b₂.map (·.now)).Pairwise (· ≤ ·) := by
      rw [List.map_append] at hcb
      exact List.Pairwise.of_cons (List.pairwise_append.mp hcb).2.1
    obtain ⟨el, hel, heln⟩ := plte_event_at (hash := hash) (parses := parses) (defs := defs) (s := 𝓢 (l ++ b₁ ++ [b])) (hafter bl hbl (by
      simp only [Time, Delta] at *; omega))
    obtain ⟨e', he', het, hrep⟩ := hrun _ _ _ htr hst ⟨el, hel, by
      rw [heln]
      simp only [Time, Delta] at *; omega⟩
    -- the first report
    obtain ⟨q₁, q, v, hb₂, hno₂, hq, hqt⟩ := plte_first (PLEv.reportsOf id) _ b₂ hcb₂ ⟨e', he', hrep, het⟩
    have hqt : q.now ≤ b.now + B := hqt
    subst hb₂
    rw [← plte_run_append] at hq
    have hj₃ := plte_stays (l := l ++ b₁ ++ [b]) (m := q₁) (n := q :: v) (by simpa using A) hj₂ hid₂ (by simpa using hend)
      (.inr ⟨by rw [hj₂eq]; rfl, hno₂⟩)
    have A₃ : OthersLeave id (𝓗 (l ++ b₁ ++ [b] ++ q₁ ++ [q] ++ v)) := by simpa using A
    have K₃ := plte_known hj₃ hid₂
    obtain ⟨j₄, hj₄, hid₄⟩ := plte_before A₃ (plte_later K₃ _) (by simpa using hend)
    obtain ⟨j₀', h3', h4', hturn⟩ := plte_turn (plte_leave A₃) K₃ hj₄ hid₄
    have := plte_once h3' hj₃ h4' hid₂
    subst this
    cases hturn with
    | same _ _ h _ => rw [h] at hq; cases hq
    | taken _ hw' _ _ =>
      rw [hj₂eq] at hw'
      rcases hw' with hw' | hw' <;> cases hw'
    | reported r'' t' o hev'' htid' hR _ hfin hmove =>
    rw [hj₂eq] at hfin hmove
    have eL : l ++ b₁ ++ [b] ++ q₁ ++ [q] = p ++ ⟨t₀, tie, .begin r⟩ :: (as ++ (b₁ ++ b :: q₁ ++ [q])) := by rw [hl]; simp
    have eB : b₁ ++ b :: (q₁ ++ q :: v) = b₁ ++ b :: q₁ ++ [q] ++ v := by simp
    have htr' : (𝓢 l).trace hash parses defs (b₁ ++ b :: (q₁ ++ q :: v)) =
        (𝓢 l).trace hash parses defs (b₁ ++ b :: q₁ ++ [q]) ++ (𝓢 (l ++ b₁ ++ [b] ++ q₁ ++ [q])).trace hash parses defs v := by
      rw [eB, plte_trace_append, ← plte_run_append]; simp
    have hqmem : (⟨q.now, .reported r'' t' (.stmt o .unit)⟩ : TPLEv) ∈ (𝓢 l).trace hash parses defs (b₁ ++ b :: q₁ ++ [q]) := by
      rw [plte_trace_append, ← plte_run_append]
      refine List.mem_append_right _ ?_
      rw [← hev'']
      simp [PgLive.trace]
    -- going on with the job as it is now
    have again : (j₄.status = .scheduled ∨ j₄.status = .retryable) → j₄.executor = d.name → j₄.attempt < j₄.maxAttempts →
        j₄.scheduledAt ≤ q.now + Δ + 1000 →
        j₄.maxAttempts - j₄.attempt + ((𝓢 (l ++ b₁ ++ [b] ++ q₁ ++ [q])).trace hash parses defs v).countP
          (fun e => e.ev.snoozesJob id) ≤ g → jf.status.isOver = true := by
      intro i1 i2 i3 i4 i5
      have hmax : max j₄.scheduledAt q.now ≤ max j₀.scheduledAt t₁ + Z := by
        simp only [Time, Delta] at *; omega
      refine ih (as ++ (b₁ ++ b :: q₁ ++ [q])) v q.now j₄ ?_ ?_ ?_ ?_ (by rw [← eL]; exact hj₄) hid₄ i1 i2 i3 ?_ ?_ ?_ ?_ ?_ ?_ ?_ ?_ ?_ jf ?_ hidf
      · intro a ha
        exact hun a (by simpa using ha)
      · rw [← eL]; simpa using h2
      · have h1 : (t₀ :: (as.map (·.now) ++ (b₁ ++ b :: (q₁ ++ q :: v)).map (·.now))).Pairwise (· ≤ ·) := by
          refine hc.sublist ?_
          exact List.Sublist.cons_cons _ (List.Sublist.append (List.Sublist.refl _) (List.sublist_cons_self _ _))
        have h2 : (t₀ :: as.map (·.now) ++ (b₁ ++ b :: q₁).map (·.now)) ++ q.now :: v.map (·.now) =
            t₀ :: (as.map (·.now) ++ (b₁ ++ b :: (q₁ ++ q :: v)).map (·.now)) := by simp
        rw [← h2] at h1
        have h3 := plte_dup h1
        have h4 : (t₀ :: as.map (·.now) ++ (b₁ ++ b :: q₁).map (·.now)) ++ q.now :: q.now :: v.map (·.now) =
            t₀ :: ((as ++ (b₁ ++ b :: q₁ ++ [q])).map (·.now) ++ q.now :: v.map (·.now)) := by simp
        rw [← h4]; exact h3
      · rw [show as ++ (b₁ ++ b :: q₁ ++ [q]) ++ v = as ++ (b₁ ++ b :: (q₁ ++ q :: v)) by simp]; exact hp
      · rw [← eL]; exact A₃
      · intro bs₁ y bs₂ hy j' hj' hid' hw'
        have e : p ++ ⟨t₀, tie, .begin r⟩ :: (as ++ (b₁ ++ b :: q₁ ++ [q])) ++ bs₁ = l ++ (b₁ ++ b :: (q₁ ++ q :: bs₁)) := by rw [hl]; simp
        rw [e] at hj' ⊢
        exact hpass _ y bs₂ (by rw [hy]; simp) j' hj' hid' hw'
      · intro e he
        rw [← eL] at he
        exact hok e (by rw [htr']; exact List.mem_append_right _ he)
      · intro bs₁ bs₂ τ hy hτ hle j' hj' hid' hw' hlock hlater
        have e : p ++ ⟨t₀, tie, .begin r⟩ :: (as ++ (b₁ ++ b :: q₁ ++ [q])) ++ bs₁ = l ++ (b₁ ++ b :: (q₁ ++ q :: bs₁)) := by rw [hl]; simp
        rw [e] at hj' hlock ⊢
        refine hheld (b₁ ++ b :: (q₁ ++ q :: bs₁)) bs₂ τ (by rw [hy]; simp) ?_ ?_ j' hj' hid' hw' hlock hlater
        · exact Int.le_trans (htb q (by simp)) hτ
        · intro y hy'
          have : y ∈ (b₁ ++ b :: q₁) ++ q :: bs₁ := by simpa using hy'
          rcases List.mem_append.mp this with h | h
          · refine Int.le_trans ?_ hτ
            rw [show b₁ ++ b :: (q₁ ++ q :: v) = (b₁ ++ b :: q₁) ++ q :: v by simp, List.map_append] at hcb
            exact (List.pairwise_append.mp hcb).2.2 _ (List.mem_map_of_mem h) q.now (by simp)
          · rcases List.mem_cons.mp h with rfl | h
            · exact hτ
            · exact hle y h
      · intro es₁ e es₂ he
        rw [← eL] at he
        exact hrun ((𝓢 l).trace hash parses defs (b₁ ++ b :: q₁ ++ [q]) ++ es₁) e es₂ (by rw [htr', he]; simp)
      · intro e he
        rw [← eL] at he
        exact hdelay e (by rw [htr']; exact List.mem_append_right _ he)
      · rw [← eL]; exact i5
      · rw [← hZ]
        simp only [Time] at *; omega
      · refine ⟨bl, ?_, hlate⟩
        have hbl' := hafter bl hbl (by simp only [Time, Delta] at *; omega)
        rcases List.mem_append.mp hbl' with h | h
        · exfalso
          rw [List.map_append] at hcb₂
          have := (List.pairwise_append.mp hcb₂).2.2 _ (List.mem_map_of_mem h) q.now (by simp)
          simp only [Time, Delta] at *; omega
        · rcases List.mem_cons.mp h with rfl | h
          · simp only [Time, Delta] at *; omega
          · exact h
      · rw [← eL]; simpa using hjf
    have over : j₄.status.isOver = true → jf.status.isOver = true := fun ho =>
      plte_over A₃ hj₄ hid₄ ho (by simpa using hjf) hidf
    rw [htr', List.countP_append] at hn
    have hnext := fun next h => hdelay _ (by rw [htr']; exact List.mem_append_left _ hqmem) r'' t' (.stmt o .unit) next rfl h
    have hidm : (j₀.markExecuting tt).id = t'.id := by rw [htid']; exact hid
    rcases reportable_cases hR with rfl | ⟨e, rfl⟩ | ⟨x, rfl⟩ | ⟨-, e, rfl⟩ | ⟨hf, x, e, rfl⟩
    · exact over ((plte_move hidm hmove).1 rfl)
    · exact over ((plte_move hidm hmove).2.1 e rfl)
    · have hpos : 0 < ((𝓢 l).trace hash parses defs (b₁ ++ b :: q₁ ++ [q])).countP (fun e => e.ev.snoozesJob id) :=
        List.countP_pos_iff.mpr ⟨_, hqmem, by simp [PLEv.snoozesJob, PgEv.snoozes, htid']⟩
      have hj : j₄ = (j₀.markExecuting tt).markSnoozed x := (plte_move hidm hmove).2.2.2.1 x rfl
      have hle := pgTime_le x
      have hxle := hnext x (.inl (by rw [htid']))
      refine again ?_ (by rw [hj]; exact hx) ?_ (by
        rw [hj]
        show pgTime x ≤ _
        simp only [Time, Delta] at *; omega) ?_
      · rw [hj]
        simp only [Row.markSnoozed]
        split <;> simp
      · rw [hj]; simp only [Row.markSnoozed, Row.markExecuting]; omega
      · rw [hj]; simp only [Row.markSnoozed, Row.markExecuting]; omega
    · exact over ((plte_move hidm hmove).2.2.1 e rfl)
    · have hj : j₄ = (j₀.markExecuting tt).markRetryable q.now x e := (plte_move hidm hmove).2.2.2.2 x e rfl
      rw [hf] at hfin
      have hne : (j₀.markExecuting tt).attempt ≠ (j₀.markExecuting tt).maxAttempts := of_decide_eq_false hfin.symm
      simp only [Row.markExecuting] at hne
      have hle := pgTime_le x
      have hxle := hnext x (.inr ⟨e, by rw [htid']⟩)
      refine again (by rw [hj]; exact .inr rfl) (by rw [hj]; exact hx) ?_ (by
        rw [hj]
        show pgTime x ≤ _
        simp only [Time, Delta] at *; omega) ?_
      · rw [hj]; simp only [Row.markRetryable, Row.markExecuting]; omega
      · rw [hj]; simp only [Row.markRetryable, Row.markExecuting]; omega

end

/-- **C126** (on Postgres). Runner `r` subscribes on the listening node `n` at `t₀`; the node's listener never reconnects and is still
listening in the end. The runner is prompt: it makes every move within `ε`, the listener handles each notification within `δ`, and the
runner is never without room for longer than `D`. None of its statements fails. At `t₁`, job `id` waits in the table, is one of the
runner's jobs and has attempts left. Nobody but the runners touches it. Whenever it waits, nothing is put in front of it, the waiting rows
of the executor ahead of it and the hand-outs for the executor under way are at most `N` together, and the listener has at most `I`
notifications before it. When somebody else than the runner's stream holds the row, it is handed out within `H`; every hand-out is followed
by a report within `B`; no report puts it off by more than `Δ`; at most `S` snoozes are reported. Then after

    max scheduled_at t₁ + (max_attempts − attempt + S) · (I δ + 15.001 ms + 10 ε + D + (N + 1) (7 ε + D) + H + B + Δ)

the job is complete, cancelled, discarded or deleted. -/
theorem C126_on_postgres (hash : HashFn) (parses : Parses) {ε δ D H B Δ : Delta} (hε : 0 ≤ ε) (hδ : 0 ≤ δ) (hD : 0 ≤ D) (hH : 0 ≤ H) (hB : 0 ≤ B)
    (hΔ : 0 ≤ Δ) (defs : List Runner) (on : List Nat) (r n i : Nat) (d : Runner) (hd : defs[r]? = some d) (p as bs : List TPLAct) (t₀ t₁ : Time)
    (tie : Int → Nat) (id : Int) (j : Row) (node node₂ : PgNode)
    (hbegin : (((PgLive.init defs on).run hash parses defs p).act hash parses defs tie t₀ (.begin r)).1 = .begun r)
    (hon : (((PgLive.init defs on).run hash parses defs p).runners[r]?.map (·.node)) = some n)
    (hi : i = ((PgLive.init defs on).run hash parses defs p).net.readers.length)
    (h0 : ((PgLive.init defs on).run hash parses defs p).net.nodes[n]? = some node) (hl0 : node.listening = true)
    (hun : ∀ a ∈ as ++ bs, a.act ≠ .reconnect n)
    (h2 : ((PgLive.init defs on).run hash parses defs (p ++ ⟨t₀, tie, .begin r⟩ :: as ++ bs)).net.nodes[n]? = some node₂) (hl2 : node₂.listening = true)
    (hc : (t₀ :: (as.map (·.now) ++ t₁ :: bs.map (·.now))).Pairwise (· ≤ ·))
    (hp : PromptPgRunner hash parses ε δ D defs r n t₀ t₀ t₀ ((PgLive.init defs on).run hash parses defs (p ++ [⟨t₀, tie, .begin r⟩])) (as ++ bs))
    (hj : j ∈ ((PgLive.init defs on).run hash parses defs (p ++ ⟨t₀, tie, .begin r⟩ :: as)).net.conc.pg.rows) (hid : j.id = id)
    (hw : j.status = .scheduled ∨ j.status = .retryable) (hx : j.executor = d.name) (hm : j.attempt < j.maxAttempts)
    (hleave : OthersLeave id (PgLive.seen hash parses defs on (p ++ ⟨t₀, tie, .begin r⟩ :: as ++ bs)))
    (N I : Nat) (hpass : ∀ bs₁ b bs₂, bs = bs₁ ++ b :: bs₂ →
      ∀ j' ∈ ((PgLive.init defs on).run hash parses defs (p ++ ⟨t₀, tie, .begin r⟩ :: as ++ bs₁)).net.conc.pg.rows, j'.id = id → (j'.status = .scheduled ∨ j'.status = .retryable) →
        (∀ ev, (((PgLive.init defs on).run hash parses defs (p ++ ⟨t₀, tie, .begin r⟩ :: as ++ bs₁)).act hash parses defs b.tie b.now b.act).1.back = some ev →
          ev.QueuesBehind j' b.now ((PgLive.init defs on).run hash parses defs (p ++ ⟨t₀, tie, .begin r⟩ :: as ++ bs₁)).net.conc.pg.rows) ∧
        ((PgLive.init defs on).run hash parses defs (p ++ ⟨t₀, tie, .begin r⟩ :: as ++ bs₁)).net.conc.pg.rows.countP (fun a => decide (RowAhead j' a)) +
          ((PgLive.init defs on).run hash parses defs (p ++ ⟨t₀, tie, .begin r⟩ :: as ++ bs₁)).net.conc.sessions.countP (fun s => s.takesFor d.name) ≤ N ∧
        ∀ node, ((PgLive.init defs on).run hash parses defs (p ++ ⟨t₀, tie, .begin r⟩ :: as ++ bs₁)).net.nodes[n]? = some node → node.inbox.length ≤ I)
    (hok : ∀ e ∈ ((PgLive.init defs on).run hash parses defs (p ++ ⟨t₀, tie, .begin r⟩ :: as)).trace hash parses defs bs, e.ev.errs r = false)
    (hheld : ∀ bs₁ bs₂ (τ : Time), bs = bs₁ ++ bs₂ → t₁ ≤ τ → (∀ b ∈ bs₁, b.now ≤ τ) →
      ∀ j' ∈ ((PgLive.init defs on).run hash parses defs (p ++ ⟨t₀, tie, .begin r⟩ :: as ++ bs₁)).net.conc.pg.rows, j'.id = id → (j'.status = .scheduled ∨ j'.status = .retryable) →
        ((PgLive.init defs on).run hash parses defs (p ++ ⟨t₀, tie, .begin r⟩ :: as ++ bs₁)).net.otherHolds i id → (∃ b ∈ bs₂, τ + H < b.now) →
        ∃ e ∈ ((PgLive.init defs on).run hash parses defs (p ++ ⟨t₀, tie, .begin r⟩ :: as ++ bs₁)).trace hash parses defs bs₂, e.now ≤ τ + H ∧ e.ev.handsOut id = true)
    (hrun : ∀ es₁ e es₂, ((PgLive.init defs on).run hash parses defs (p ++ ⟨t₀, tie, .begin r⟩ :: as)).trace hash parses defs bs = es₁ ++ e :: es₂ → e.ev.handsOut id = true →
      (∃ e' ∈ es₂, e.now + B < e'.now) → ∃ e' ∈ es₂, e'.now ≤ e.now + B ∧ e'.ev.reportsOf id = true)
    (hdelay : ∀ e ∈ ((PgLive.init defs on).run hash parses defs (p ++ ⟨t₀, tie, .begin r⟩ :: as)).trace hash parses defs bs, ∀ r' t ev next, e.ev = .reported r' t ev →
      (ev = .stmt (.snoozed id next) .unit ∨ ∃ x, ev = .stmt (.retryable id next x) .unit) → next ≤ e.now + Δ)
    (S : Nat) (hsnooze : (((PgLive.init defs on).run hash parses defs (p ++ ⟨t₀, tie, .begin r⟩ :: as)).trace hash parses defs bs).countP (fun e => e.ev.snoozesJob id) ≤ S)
    (hlate : ∃ b ∈ bs, max j.scheduledAt t₁ + (j.maxAttempts - j.attempt + S) *
      (I * δ + 15001000 + 10 * ε + D + (N + 1) * (7 * ε + D) + H + B + Δ) < b.now) :
    ∀ j' ∈ ((PgLive.init defs on).run hash parses defs (p ++ ⟨t₀, tie, .begin r⟩ :: as ++ bs)).net.conc.pg.rows, j'.id = id →
      j'.status = .complete ∨ j'.status = .cancelled ∨ j'.status = .discarded := by
  intro j' hj' hid'
  have hn : ((j.maxAttempts - j.attempt + S).toNat : Int) = j.maxAttempts - j.attempt + S := Int.toNat_of_nonneg (by omega)
  have := plte_rounds hε hδ hD hH hB hΔ r n i d hd p t₀ tie N I node node₂ _ hbegin hon hi h0 hl0 hl2 (j.maxAttempts - j.attempt + S).toNat
    as bs t₁ j hun h2 hc hp hj hid hw hx hm hleave hpass hok hheld hrun hdelay (by rw [hn]; omega) (by rw [hn]; exact Int.le_refl _) hlate
    j' hj' hid'
  cases hst : j'.status <;> rw [hst] at this <;> simp_all [JobStatus.isOver]

/-- The schedule of `pgLiveRest`, except that the first execution of job 2 fails at 3 s. The job is retried 10 s later: its second execution
takes from 13.007 s to 14 s. -/
def pgToEndRest : List TPLAct :=
  pgLiveRest.take 21 ++
  [plAct (3 * sec) (.finish 0 1 { ending := .returns (.error "Io" "broken") }), plAct (3 * sec) (.report 0 1), plAct (3 * sec) (.poll 0),
   plAct (3 * sec) (.step 0 false), plAct (3 * sec + ms) (.deliver 0)] ++
  (List.range 10).map (fun (k : Nat) => plAct (3 * sec + (k + 1) * ms) (.step 0 false)) ++
  [plAct (13 * sec + ms) (.step 0 true)] ++
  (List.range 7).map (fun (k : Nat) => plAct (13 * sec + (k + 1) * ms) (.step 0 false)) ++
  [plAct (14 * sec) (.finish 0 2 { ending := .returns .done }), plAct (14 * sec) (.report 0 2), plAct (14 * sec) (.poll 0)] ++
  (List.range 3).map (fun (k : Nat) => plAct (14 * sec + k * ms) (.step 0 false)) ++
  [plAct (42 * sec) .connect]

/-- The hypotheses of `C126_on_postgres` about job 2 are met with ε = δ = 1 ms, D = 2 s, H = 0, B = 1 s, Δ = 10 s, N = 2 (job 1 ahead of it and
being handed out), I = 2 and S = 0: it is over by 1 s + 2 · (2 ms + 15.001 ms + 10 ms + 2 s + 3 · 2.007 s + 1 s + 10 s) = 39.096002 s. -/
example : ((0 : Time) :: (pgLiveStart.map (·.now) ++ 1 * sec :: pgToEndRest.map (·.now))).Pairwise (· ≤ ·) ∧
    PromptPgRunner sampleHash sampleParses ms ms (2 * sec) [eagerRunner (some 1)] 0 0 0 0 0
      ((PgLive.init [eagerRunner (some 1)] [0]).run sampleHash sampleParses [eagerRunner (some 1)] [plAct 0 .connect, plAct 0 (.begin 0)])
      (pgLiveStart ++ pgToEndRest) ∧
    (pgLiveStart ++ pgToEndRest).all (fun a => match a.act with | .reconnect _ => false | _ => true) = true ∧
    (let s := (PgLive.init [eagerRunner (some 1)] [0]).run sampleHash sampleParses [eagerRunner (some 1)]
        (plAct 0 .connect :: plAct 0 (.begin 0) :: pgLiveStart);
      s.net.nodes.map (·.listening) = [true] ∧
      ((PgLive.init [eagerRunner (some 1)] [0]).run sampleHash sampleParses [eagerRunner (some 1)]
        (plAct 0 .connect :: plAct 0 (.begin 0) :: (pgLiveStart ++ pgToEndRest))).net.nodes.map (·.listening) = [true, true] ∧
      (s.trace sampleHash sampleParses [eagerRunner (some 1)] pgToEndRest).all (fun e => !e.ev.errs 0) = true ∧
      ∃ j ∈ s.net.conc.pg.rows, j.id = 2 ∧ j.status = .scheduled ∧ j.executor = "mail" ∧ j.attempt < j.maxAttempts ∧
        ∃ b ∈ pgToEndRest, max j.scheduledAt (1 * sec) + (j.maxAttempts - j.attempt + 0) *
          (2 * ms + 15001000 + 10 * ms + 2 * sec + (2 + 1) * (7 * ms + 2 * sec) + 0 + 1 * sec + 10 * sec) < b.now) := by
  decide +kernel

/-- Nobody but the runner and its stream touches it. -/
example : (PgLive.seen sampleHash sampleParses [eagerRunner (some 1)] [0]
      (plAct 0 .connect :: plAct 0 (.begin 0) :: (pgLiveStart ++ pgToEndRest))).all
    (fun e => match e.ev with | .db ev => !ev.touches 2 || ev.handsOut 2 | _ => true) = true := by
  decide +kernel

/-- Whenever it waits, nothing is put in front of it, at most two are before it, at most two notifications wait, and nobody but stream 0
holds its row. -/
example : (List.range (pgToEndRest.length + 1)).all (fun k =>
    let s := (PgLive.init [eagerRunner (some 1)] [0]).run sampleHash sampleParses [eagerRunner (some 1)]
      (plAct 0 .connect :: plAct 0 (.begin 0) :: (pgLiveStart ++ pgToEndRest.take k))
    s.net.conc.pg.rows.all (fun j => !(j.id == 2 && (j.status == .scheduled || j.status == .retryable)) ||
      (match pgToEndRest[k]? with
        | some b => (match (s.act sampleHash sampleParses [eagerRunner (some 1)] b.tie b.now b.act).1.back with
          | some ev => decide (ev.QueuesBehind j b.now s.net.conc.pg.rows)
          | none => true)
        | none => true) &&
      decide (s.net.conc.pg.rows.countP (fun a => decide (RowAhead j a)) + s.net.conc.sessions.countP (fun x => x.takesFor "mail") ≤ 2) &&
      s.net.nodes.all (fun n => decide (n.inbox.length ≤ 2)) &&
      s.net.conc.sessions.zipIdx.all (fun (x, m) => x.rowLock != some 2 ||
        (match (s.net.readers[0]?.map (fun (q : PgReader) => q.wait)) with | some (.loading _ _ m') => m == m' | _ => false)))) = true := by
  decide +kernel

/-- It is handed out twice, each hand-out is followed by a report within 1 s, and it is put off by 10 s once. In the end it is complete. -/
example : ((((PgLive.init [eagerRunner (some 1)] [0]).run sampleHash sampleParses [eagerRunner (some 1)]
      (plAct 0 .connect :: plAct 0 (.begin 0) :: pgLiveStart)).trace sampleHash sampleParses [eagerRunner (some 1)] pgToEndRest).filterMap
    fun e => match e.ev with
      | .reported _ _ (.stmt (.retryable 2 next _) .unit) => some (e.now, "retry at", next)
      | .reported _ t _ => if t.id = 2 then some (e.now, "reported", 0) else none
      | ev => if ev.handsOut 2 then some (e.now, "handed out", 0) else none) =
    [(2 * sec + 5 * ms, "handed out", 0), (3 * sec, "retry at", 13 * sec), (13 * sec + 6 * ms, "handed out", 0), (14 * sec, "reported", 0)] ∧
    ((((PgLive.init [eagerRunner (some 1)] [0]).run sampleHash sampleParses [eagerRunner (some 1)]
      (plAct 0 .connect :: plAct 0 (.begin 0) :: pgLiveStart)).trace sampleHash sampleParses [eagerRunner (some 1)] pgToEndRest).countP
      fun e => e.ev.snoozesJob 2) = 0 ∧
    (((PgLive.init [eagerRunner (some 1)] [0]).run sampleHash sampleParses [eagerRunner (some 1)]
      (plAct 0 .connect :: plAct 0 (.begin 0) :: (pgLiveStart ++ pgToEndRest))).net.conc.pg.rows.map
      fun j => (j.id, j.status, j.attempt)) = [(1, .complete, 1), (2, .complete, 2)] := by
  decide +kernel

/-- **C129** (on Postgres). Runner `r` is on a listening node and prompt, as in C126. Action `v` of an enqueue call, made after the runner has
subscribed, stores a row of its executor with at least one attempt. With the hypotheses of C126 from then on, the job is complete,
cancelled, discarded or deleted after

    max scheduled_at v + (max_attempts + S) · (I δ + 15.001 ms + 10 ε + D + (N + 1) (7 ε + D) + H + B + Δ). -/
theorem C129_on_postgres (hash : HashFn) (parses : Parses) {ε δ D H B Δ : Delta} (hε : 0 ≤ ε) (hδ : 0 ≤ δ) (hD : 0 ≤ D) (hH : 0 ≤ H) (hB : 0 ≤ B)
    (hΔ : 0 ≤ Δ) (defs : List Runner) (on : List Nat) (r n i : Nat) (d : Runner) (hd : defs[r]? = some d) (p as bs : List TPLAct) (v : TPLAct) (t₀ : Time)
    (tie : Int → Nat) (row : Row) (uc : Option Criteria) (node node₂ : PgNode)
    (hbegin : (((PgLive.init defs on).run hash parses defs p).act hash parses defs tie t₀ (.begin r)).1 = .begun r)
    (hon : (((PgLive.init defs on).run hash parses defs p).runners[r]?.map (·.node)) = some n)
    (hi : i = ((PgLive.init defs on).run hash parses defs p).net.readers.length)
    (h0 : ((PgLive.init defs on).run hash parses defs p).net.nodes[n]? = some node) (hl0 : node.listening = true)
    (hun : ∀ a ∈ as ++ [v] ++ bs, a.act ≠ .reconnect n)
    (h2 : ((PgLive.init defs on).run hash parses defs (p ++ ⟨t₀, tie, .begin r⟩ :: as ++ [v] ++ bs)).net.nodes[n]? = some node₂) (hl2 : node₂.listening = true)
    (hc : (t₀ :: (as.map (·.now) ++ v.now :: bs.map (·.now))).Pairwise (· ≤ ·))
    (hp : PromptPgRunner hash parses ε δ D defs r n t₀ t₀ t₀ ((PgLive.init defs on).run hash parses defs (p ++ [⟨t₀, tie, .begin r⟩])) (as ++ [v] ++ bs))
    (hins : (((PgLive.init defs on).run hash parses defs (p ++ ⟨t₀, tie, .begin r⟩ :: as)).act hash parses defs v.tie v.now v.act).1 = .db (.inserted row uc))
    (hx : row.executor = d.name) (hm : 0 < row.maxAttempts)
    (hleave : OthersLeave row.id (PgLive.seen hash parses defs on (p ++ ⟨t₀, tie, .begin r⟩ :: as ++ [v] ++ bs)))
    (N I : Nat) (hpass : ∀ bs₁ b bs₂, bs = bs₁ ++ b :: bs₂ →
      ∀ j' ∈ ((PgLive.init defs on).run hash parses defs (p ++ ⟨t₀, tie, .begin r⟩ :: as ++ [v] ++ bs₁)).net.conc.pg.rows, j'.id = row.id → (j'.status = .scheduled ∨ j'.status = .retryable) →
        (∀ ev, (((PgLive.init defs on).run hash parses defs (p ++ ⟨t₀, tie, .begin r⟩ :: as ++ [v] ++ bs₁)).act hash parses defs b.tie b.now b.act).1.back = some ev →
          ev.QueuesBehind j' b.now ((PgLive.init defs on).run hash parses defs (p ++ ⟨t₀, tie, .begin r⟩ :: as ++ [v] ++ bs₁)).net.conc.pg.rows) ∧
        ((PgLive.init defs on).run hash parses defs (p ++ ⟨t₀, tie, .begin r⟩ :: as ++ [v] ++ bs₁)).net.conc.pg.rows.countP (fun a => decide (RowAhead j' a)) +
          ((PgLive.init defs on).run hash parses defs (p ++ ⟨t₀, tie, .begin r⟩ :: as ++ [v] ++ bs₁)).net.conc.sessions.countP (fun s => s.takesFor d.name) ≤ N ∧
        ∀ node, ((PgLive.init defs on).run hash parses defs (p ++ ⟨t₀, tie, .begin r⟩ :: as ++ [v] ++ bs₁)).net.nodes[n]? = some node → node.inbox.length ≤ I)
    (hok : ∀ e ∈ ((PgLive.init defs on).run hash parses defs (p ++ ⟨t₀, tie, .begin r⟩ :: as ++ [v])).trace hash parses defs bs, e.ev.errs r = false)
    (hheld : ∀ bs₁ bs₂ (τ : Time), bs = bs₁ ++ bs₂ → v.now ≤ τ → (∀ b ∈ bs₁, b.now ≤ τ) →
      ∀ j' ∈ ((PgLive.init defs on).run hash parses defs (p ++ ⟨t₀, tie, .begin r⟩ :: as ++ [v] ++ bs₁)).net.conc.pg.rows, j'.id = row.id → (j'.status = .scheduled ∨ j'.status = .retryable) →
        ((PgLive.init defs on).run hash parses defs (p ++ ⟨t₀, tie, .begin r⟩ :: as ++ [v] ++ bs₁)).net.otherHolds i row.id → (∃ b ∈ bs₂, τ + H < b.now) →
        ∃ e ∈ ((PgLive.init defs on).run hash parses defs (p ++ ⟨t₀, tie, .begin r⟩ :: as ++ [v] ++ bs₁)).trace hash parses defs bs₂, e.now ≤ τ + H ∧ e.ev.handsOut row.id = true)
    (hrun : ∀ es₁ e es₂, ((PgLive.init defs on).run hash parses defs (p ++ ⟨t₀, tie, .begin r⟩ :: as ++ [v])).trace hash parses defs bs = es₁ ++ e :: es₂ →
      e.ev.handsOut row.id = true → (∃ e' ∈ es₂, e.now + B < e'.now) → ∃ e' ∈ es₂, e'.now ≤ e.now + B ∧ e'.ev.reportsOf row.id = true)
    (hdelay : ∀ e ∈ ((PgLive.init defs on).run hash parses defs (p ++ ⟨t₀, tie, .begin r⟩ :: as ++ [v])).trace hash parses defs bs, ∀ r' t ev next, e.ev = .reported r' t ev →
      (ev = .stmt (.snoozed row.id next) .unit ∨ ∃ x, ev = .stmt (.retryable row.id next x) .unit) → next ≤ e.now + Δ)
    (S : Nat) (hsnooze : (((PgLive.init defs on).run hash parses defs (p ++ ⟨t₀, tie, .begin r⟩ :: as ++ [v])).trace hash parses defs bs).countP
      (fun e => e.ev.snoozesJob row.id) ≤ S)
    (hlate : ∃ b ∈ bs, max row.scheduledAt v.now + (row.maxAttempts + S) *
      (I * δ + 15001000 + 10 * ε + D + (N + 1) * (7 * ε + D) + H + B + Δ) < b.now) :
    ∀ j' ∈ ((PgLive.init defs on).run hash parses defs (p ++ ⟨t₀, tie, .begin r⟩ :: as ++ [v] ++ bs)).net.conc.pg.rows, j'.id = row.id →
      j'.status = .complete ∨ j'.status = .cancelled ∨ j'.status = .discarded := by
  have eA : p ++ ⟨t₀, tie, .begin r⟩ :: as ++ [v] = p ++ ⟨t₀, tie, .begin r⟩ :: (as ++ [v]) := by simp
  have hinv := plte_inv (hash := hash) (parses := parses) (defs := defs) (on := on) (p ++ ⟨t₀, tie, .begin r⟩ :: as)
  have hrow : row ∈ ((PgLive.init defs on).run hash parses defs (p ++ ⟨t₀, tie, .begin r⟩ :: as ++ [v])).net.conc.pg.rows ∧ row.status = .scheduled ∧ row.attempt = 0 := by
    rw [plte_run_append _ _ _ _ _ [v]]
    show row ∈ ((((PgLive.init defs on).run hash parses defs (p ++ ⟨t₀, tie, .begin r⟩ :: as)).act hash parses defs v.tie v.now v.act).2).net.conc.pg.rows ∧ _
    generalize (PgLive.init defs on).run hash parses defs (p ++ ⟨t₀, tie, .begin r⟩ :: as) = s at *
    obtain ⟨a, ha⟩ : ∃ a, v.act = .db a := by
      obtain ⟨now, tie', act⟩ := v
      simp only at hins
      cases act with
      | db a => exact ⟨a, rfl⟩
      | _ =>
        simp only [PgLive.act] at hins
        repeat' split at hins
        all_goals cases hins
    rw [ha] at hins ⊢
    have hev : (s.net.conc.step hash v.tie v.now a).1 = .inserted row uc :=
      PLEv.db.inj (show PLEv.db (s.net.conc.step hash v.tie v.now a).1 = .db (.inserted row uc) from hins)
    have hts := table_step hinv.inv hash v.tie v.now a
    obtain ⟨e, t, key, hmade⟩ := inserted_fresh hinv.hist hev
    refine ⟨?_, by rw [hmade]; rfl, by rw [hmade]; rfl⟩
    show row ∈ (s.net.conc.step hash v.tie v.now a).2.pg.rows
    rw [show (s.plain.conc.step hash v.tie v.now a) = (s.net.conc.step hash v.tie v.now a) from rfl, hev] at hts
    generalize (s.net.conc.step hash v.tie v.now a).2.pg.rows = rows' at *
    cases hts with
    | same _ _ hi => have := hi row.id; simp [PgEv.inserts] at this
    | insert _ _ _ => simp
    | change _ id f _ _ hi _ => have := hi row.id; simp [PgEv.inserts] at this
  obtain ⟨hj, hst, hat⟩ := hrow
  rw [eA] at h2 hleave hpass hok hheld hrun hdelay hsnooze hj ⊢
  refine C126_on_postgres hash parses hε hδ hD hH hB hΔ defs on r n i d hd p (as ++ [v]) bs t₀ v.now tie row.id row node node₂ hbegin hon hi h0 hl0
    hun h2 hl2 ?_ hp hj rfl (.inl hst) hx (by rw [hat]; exact hm) hleave N I hpass hok hheld hrun hdelay S hsnooze (by rw [hat, Int.sub_zero]; exact hlate)
  have h5 : (t₀ :: as.map (·.now)) ++ v.now :: bs.map (·.now) = t₀ :: (as.map (·.now) ++ v.now :: bs.map (·.now)) := by simp
  rw [← h5] at hc
  have h6 := plte_dup hc
  have h7 : (t₀ :: as.map (·.now)) ++ v.now :: v.now :: bs.map (·.now) = t₀ :: ((as ++ [v]).map (·.now) ++ v.now :: bs.map (·.now)) := by simp
  rw [← h7]; exact h6

/-- For `C129_on_postgres`: in the schedule of `pgToEndRest` job 2 is stored by the last action of `pgLiveStart`. The other hypotheses are those of
`C126_on_postgres`: it is over by 1 s + 2 · 19.048001 s. -/
example : (match (((PgLive.init [eagerRunner (some 1)] [0]).run sampleHash sampleParses [eagerRunner (some 1)]
      (plAct 0 .connect :: plAct 0 (.begin 0) :: pgLiveStart.take 6)).act sampleHash sampleParses [eagerRunner (some 1)] (fun _ => 0) (1 * sec)
      (.db (.plain { sampleEnq with scheduledAt := 1 * sec }))).1 with
    | .db (.inserted row none) => row.id == 2 && row.executor == "mail" && row.maxAttempts == 2 && row.scheduledAt == 1 * sec
    | _ => false) = true ∧
    pgLiveStart.length = 7 ∧ ((pgLiveStart.drop 6).map fun a => a.now) = [1 * sec] ∧
    ∃ b ∈ pgToEndRest, max (1 * sec) (1 * sec) + (2 + 0) *
      (2 * ms + 15001000 + 10 * ms + 2 * sec + (2 + 1) * (7 * ms + 2 * sec) + 0 + 1 * sec + 10 * sec) < b.now := by
  decide +kernel

end Rexecutor
