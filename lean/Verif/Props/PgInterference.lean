import Verif.Props.Interference
import Verif.Lemmas.PgRow

/-! C105 on Postgres: what other executors do makes no difference to an executor's
jobs, for calls that run one at a time. -/

namespace Rexecutor

/-- The rows of executor `x`, in order. -/
def ownRows (x : String) (p : Pg) : List Row := p.rows.filter fun r => r.executor == x

/-- A call that is not the business of executor `x`: it enqueues for another executor,
names a job that is not stored as one of `x`, polls for another executor, or prunes
only jobs of other executors. -/
def Api.Elsewhere (x : String) (p : Pg) : Api → Prop
  | .enqueue e => e.executor ≠ x ∧ e.Scoped
  | .op (.complete id) => ∀ r ∈ p.rows, r.id = id → r.executor ≠ x
  | .op (.retryable id _ _) => ∀ r ∈ p.rows, r.id = id → r.executor ≠ x
  | .op (.discarded id _) => ∀ r ∈ p.rows, r.id = id → r.executor ≠ x
  | .op (.cancelled id _) => ∀ r ∈ p.rows, r.id = id → r.executor ≠ x
  | .op (.snoozed id _) => ∀ r ∈ p.rows, r.id = id → r.executor ≠ x
  | .op (.rerun id) => ∀ r ∈ p.rows, r.id = id → r.executor ≠ x
  | .op (.update job) => ∀ r ∈ p.rows, r.id = job.id → r.executor ≠ x
  | .op (.prune spec) => ¬ spec.IsAbout x
  | .op (.load y) => y ≠ x
  | .op (.query _) => True
  | .op (.subscribe _) => True
  | .op .notifyAll => True

/-- A call that may happen in both runs: an enqueue with criteria within its executor,
a prune by age, a prune by length of jobs of `x` only or of no job of `x`, or any
other call. -/
def Api.Separate (x : String) : Api → Prop
  | .enqueue e => e.Scoped
  | .op (.prune spec) => (∃ d, spec.pruneBy = .maxAge d) ∨
      (∀ y, spec.IsAbout y → y = x) ∨ ¬ spec.IsAbout x
  | _ => True

/-- What executor `x` gets to see of a call: the jobs it is handed and the answers to
its enqueues. -/
def Api.seenBy (x : String) (r : Res) : Api → Option Res
  | .op (.load y) => if y = x then some r else none
  | .enqueue e => if e.executor = x then some r else none
  | _ => none

/-- Two sequences of calls, from the tables `p` and `q`, such that at every moment
either both make the same call or each makes one that is not the business of `x`, and
both have used the same number of ids. -/
def PgSideBySide (hash : HashFn) (ties : Nat → Int → Nat) (x : String) : Pg → Pg → List (TApi × TApi) → Prop
  | _, _, [] => True
  | p, q, (a, b) :: cs =>
    a.now = b.now ∧
    ((a.call = b.call ∧ a.call.Separate x) ∨ (a.call.Elsewhere x p ∧ b.call.Elsewhere x q)) ∧
    (p.api hash (ties cs.length) a.now a.call).2.seq = (q.api hash (ties cs.length) b.now b.call).2.seq ∧
    PgSideBySide hash ties x (p.api hash (ties cs.length) a.now a.call).2
      (q.api hash (ties cs.length) b.now b.call).2 cs

/-! ## One call -/

/-- No two rows with the same id, and none beyond the sequence. -/
structure PgOk (p : Pg) : Prop where
  nodup : (rowIds p.rows).Nodup
  bound : ∀ i ∈ rowIds p.rows, i ≤ (p.seq : Int)

theorem ownRows_updateRows {x : String} {id : Int} {f : Row → Row} (hf : ∀ r, (f r).executor = r.executor)
    (rows : List Row) :
    (updateRows id f rows).1.filter (fun r => r.executor == x) =
      (updateRows id f (rows.filter fun r => r.executor == x)).1 := by
  unfold updateRows
  simp only
  rw [List.filter_map]
  congr 1
  apply List.filter_congr
  intro r _
  simp only [Function.comp_apply]
  split
  · rw [hf]
  · rfl

theorem updateRows_absent {id : Int} {f : Row → Row} {rows : List Row} (h : ∀ r ∈ rows, r.id ≠ id) :
    (updateRows id f rows).1 = rows := by
  unfold updateRows
  simp only
  conv => rhs; rw [← List.map_id rows]
  apply List.map_congr_left
  intro r hr
  simp [h r hr]

theorem onRow_own {x : String} {id : Int} {f : Row → Row} (hf : ∀ r, (f r).executor = r.executor) {p : Pg}
    (H : PgOk p) : ownRows x (p.onRow id f).2 = (updateRows id f (ownRows x p)).1 := by
  rcases onRow_cases id f p H.nodup with ⟨hn, he⟩ | ⟨-, he⟩
  · rw [he, updateRows_absent]
    intro r hr hid
    exact hn (mem_rowIds.mpr ⟨r, (List.mem_filter.mp hr).1, hid⟩)
  · rw [he]; exact ownRows_updateRows hf _

theorem onRow_elsewhere {x : String} {id : Int} {f : Row → Row} (hf : ∀ r, (f r).executor = r.executor) {p : Pg}
    (H : PgOk p) (he : ∀ r ∈ p.rows, r.id = id → r.executor ≠ x) :
    ownRows x (p.onRow id f).2 = ownRows x p := by
  rw [onRow_own hf H, updateRows_absent]
  intro r hr hid
  obtain ⟨h1, h2⟩ := List.mem_filter.mp hr
  exact he r h1 hid (by simpa using h2)

/-- A row changed because it is one of another executor is not one of `x`. -/
theorem updateRows_other {x : String} {f : Row → Row} (hf : ∀ r, (f r).executor = r.executor) {p : Pg}
    (H : PgOk p) {r : Row} (hr : r ∈ p.rows) (hx : r.executor ≠ x) :
    (updateRows r.id f p.rows).1.filter (fun r => r.executor == x) = ownRows x p := by
  rw [ownRows_updateRows hf, updateRows_absent]; rfl
  intro r' hr' hid
  obtain ⟨h1, h2⟩ := List.mem_filter.mp hr'
  rw [row_unique H.nodup h1 hr hid] at h2
  exact hx (by simpa using h2)

theorem ready_own (now : Time) (x : String) (p : Pg) :
    p.rows.filter (Row.ready now x) = (ownRows x p).filter (Row.ready now x) := by
  unfold ownRows
  rw [List.filter_filter]
  apply List.filter_congr
  intro r _
  unfold Row.ready
  cases r.executor == x <;> simp

theorem sortBy_head_mem {α : Type _} {le : α → α → Bool} {l : List α} {a : α} {t : List α}
    (h : sortBy le l = a :: t) : a ∈ l :=
  (sortBy_perm le l).mem_iff.mp (by rw [h]; simp)

theorem load_own {x : String} {tie : Int → Nat} {now : Time} {p q : Pg} (h : ownRows x p = ownRows x q) :
    (p.load tie now x).1 = (q.load tie now x).1 ∧
    ownRows x (p.load tie now x).2 = ownRows x (q.load tie now x).2 := by
  unfold Pg.load
  rw [ready_own, ready_own, h]
  split
  · exact ⟨rfl, h⟩
  · rename_i r _ _
    have : ∀ p : Pg, ownRows x { p with rows := (updateRows r.id (Row.markExecuting now) p.rows).1 } =
        (updateRows r.id (Row.markExecuting now) (ownRows x p)).1 := fun p =>
      ownRows_updateRows (f := Row.markExecuting now) (fun _ => rfl) _
    simp only
    split <;> exact ⟨rfl, by rw [this, this, h]⟩

theorem load_other {x y : String} {tie : Int → Nat} {now : Time} {p : Pg} (H : PgOk p) (hy : y ≠ x) :
    ownRows x (p.load tie now y).2 = ownRows x p := by
  unfold Pg.load
  split
  · rfl
  · rename_i r t hs
    have hr := List.mem_filter.mp (sortBy_head_mem hs)
    have hx : r.executor = y := by
      have := hr.2
      simp only [Row.ready, Bool.and_eq_true, beq_iff_eq] at this
      exact this.2
    have := updateRows_other (x := x) (f := Row.markExecuting now) (fun _ => rfl) H hr.1 (by rw [hx]; exact hy)
    simp only
    split <;> exact this

theorem finds_executor {uc : Criteria} {y : String} {t : Time} {r : Row} (hs : uc.executor = true)
    (h : uc.finds y t r = true) : r.executor = y := by
  simp only [Criteria.finds, hs, Bool.not_true, Bool.false_or, Bool.and_eq_true, beq_iff_eq] at h
  exact h.1.2

theorem insert_own (x : String) (now : Time) (e : EnqueuableJob) (key : Option Int) (p : Pg) :
    ownRows x (p.insert now e key).2 =
      if p.seq < 2147483647 ∧ e.executor = x then ownRows x p ++ [e.toRow now ((p.seq + 1 : Nat) : Int) key]
      else ownRows x p := by
  unfold Pg.insert
  by_cases h : p.seq ≥ 2147483647
  · rw [if_pos h, if_neg (by omega)]
  · rw [if_neg h]
    unfold ownRows
    simp only [List.filter_append]
    by_cases hx : e.executor = x
    · rw [if_pos ⟨by omega, hx⟩]; simp [EnqueuableJob.toRow, hx]
    · rw [if_neg (by simp [hx])]; simp [EnqueuableJob.toRow, hx]

theorem insert_res (now : Time) (e : EnqueuableJob) (key : Option Int) {p q : Pg} (h : p.seq = q.seq) :
    (p.insert now e key).1 = (q.insert now e key).1 := by
  unfold Pg.insert
  rw [h]
  split <;> rfl

theorem enqueue_own {x : String} (hash : HashFn) (tie : Int → Nat) (now : Time) {e : EnqueuableJob} {p q : Pg}
    (hx : e.executor = x) (hs : e.Scoped) (h : ownRows x p = ownRows x q) (hseq : p.seq = q.seq) :
    (p.enqueue hash tie now e).1 = (q.enqueue hash tie now e).1 ∧
    ownRows x (p.enqueue hash tie now e).2 = ownRows x (q.enqueue hash tie now e).2 := by
  unfold Pg.enqueue
  cases hc : e.criteria with
  | none =>
    simp only
    exact ⟨insert_res _ _ _ hseq, by rw [insert_own, insert_own, h, hseq]⟩
  | some uc =>
    simp only
    unfold Pg.insertUnique
    have hf : ∀ p : Pg, p.rows.filter (fun r => uc.finds e.executor e.scheduledAt r) =
        (ownRows x p).filter fun r => uc.finds e.executor e.scheduledAt r := by
      intro p
      unfold ownRows
      rw [List.filter_filter]
      apply List.filter_congr
      intro r _
      cases hm : uc.finds e.executor e.scheduledAt r with
      | false => simp
      | true => simp [finds_executor (hs uc hc) hm, hx]
    rw [hf, hf, h]
    split
    · exact ⟨insert_res _ _ _ hseq, by rw [insert_own, insert_own, h, hseq]⟩
    · rename_i r _ _
      split
      · rename_i rep _
        have : ∀ p : Pg, ownRows x { p with rows := (updateRows r.id (Row.replace rep e) p.rows).1 } =
            (updateRows r.id (Row.replace rep e) (ownRows x p)).1 := fun p =>
          ownRows_updateRows (f := Row.replace rep e) (fun _ => rfl) _
        split
        · split
          · exact ⟨rfl, h⟩
          · exact ⟨rfl, by rw [this, this, h]⟩
        · exact ⟨rfl, h⟩
      · exact ⟨rfl, h⟩

theorem enqueue_other {x : String} (hash : HashFn) (tie : Int → Nat) (now : Time) {e : EnqueuableJob} {p : Pg}
    (H : PgOk p) (hx : e.executor ≠ x) (hs : e.Scoped) :
    ownRows x (p.enqueue hash tie now e).2 = ownRows x p := by
  unfold Pg.enqueue
  cases hc : e.criteria with
  | none => simp only; rw [insert_own, if_neg (by simp [hx])]
  | some uc =>
    simp only
    unfold Pg.insertUnique
    split
    · rw [insert_own, if_neg (by simp [hx])]
    · rename_i r t hsort
      have hr := List.mem_filter.mp (sortBy_head_mem hsort)
      have hrx : r.executor ≠ x := by rw [finds_executor (hs uc hc) hr.2]; exact hx
      split
      · rename_i rep _
        have := updateRows_other (x := x) (f := Row.replace rep e) (fun _ => rfl) H hr.1 hrx
        split
        · split
          · rfl
          · exact this
        · rfl
      · rfl

theorem doomed_picked {now : Time} {tie : Int → Nat} {spec : PruneSpec} {rows : List Row} {i : Int}
    (h : i ∈ spec.doomed now tie rows) : ∃ r ∈ rows, r.id = i ∧ spec.picks r = true := by
  unfold PruneSpec.doomed at h
  split at h
  · obtain ⟨r, hr, rfl⟩ := List.mem_map.mp h
    obtain ⟨h1, h2⟩ := List.mem_filter.mp hr
    exact ⟨r, h1, rfl, (Bool.and_eq_true_iff.mp h2).1⟩
  · obtain ⟨r, hr, rfl⟩ := List.mem_map.mp h
    have := (sortBy_perm _ _).mem_iff.mp (List.mem_of_mem_drop hr)
    obtain ⟨h1, h2⟩ := List.mem_filter.mp this
    exact ⟨r, h1, rfl, h2⟩

theorem picks_isAbout {spec : PruneSpec} {r : Row} (h : spec.picks r = true) :
    spec.IsAbout r.executor := by
  unfold PruneSpec.picks at h
  unfold PruneSpec.IsAbout
  cases he : spec.executors <;> simp_all
  intro hm
  exact h.2 _ hm rfl

theorem not_about_picks {x : String} {spec : PruneSpec} (h : ¬ spec.IsAbout x) (r : Row)
    (hx : r.executor = x) : spec.picks r = false := by
  cases hm : spec.picks r with
  | false => rfl
  | true => exact absurd (hx ▸ picks_isAbout hm) h

theorem prune_other {x : String} {tie : Int → Nat} {now : Time} {spec : PruneSpec} {p : Pg} (H : PgOk p)
    (h : ∀ r : Row, r.executor = x → spec.picks r = false) :
    ownRows x (p.prune tie now spec) = ownRows x p := by
  unfold ownRows Pg.prune
  simp only [List.filter_filter]
  apply List.filter_congr
  intro r hr
  by_cases hx : r.executor = x
  · have : (spec.doomed now tie p.rows).contains r.id = false := by
      cases hc : (spec.doomed now tie p.rows).contains r.id with
      | false => rfl
      | true =>
        obtain ⟨r', h1, h2, h3⟩ := doomed_picked (List.contains_iff_mem.mp hc)
        rw [row_unique H.nodup h1 hr h2, h r hx] at h3
        cases h3
    rw [this]; simp
  · simp [hx]

theorem prune_own {x : String} {tie : Int → Nat} {now : Time} {spec : PruneSpec} {p q : Pg} (Hp : PgOk p)
    (Hq : PgOk q) (hs : Api.Separate x (.op (.prune spec))) (h : ownRows x p = ownRows x q) :
    ownRows x (p.prune tie now spec) = ownRows x (q.prune tie now spec) := by
  rcases hs with ⟨d, hd⟩ | hs | hs
  · have key : ∀ p : Pg, PgOk p → ownRows x (p.prune tie now spec) =
        (ownRows x p).filter fun r => !(spec.picks r &&
          (if spec.status.inPast then decide (r.scheduledAt < pgTime (now - d))
           else decide (r.scheduledAt > pgTime (now + d)))) := by
      intro p H
      unfold ownRows Pg.prune
      simp only [List.filter_filter]
      apply List.filter_congr
      intro r hr
      rw [Bool.and_comm]
      congr 2
      rw [Bool.eq_iff_iff, List.contains_iff_mem]
      unfold PruneSpec.doomed
      rw [hd]
      simp only [List.mem_map, List.mem_filter]
      constructor
      · rintro ⟨r', ⟨h1, h2⟩, h3⟩
        rw [← row_unique H.nodup h1 hr h3]; exact h2
      · intro h2; exact ⟨r, ⟨hr, h2⟩, rfl⟩
    rw [key p Hp, key q Hq, h]
  · by_cases hage : ∃ d, spec.pruneBy = .maxAge d
    · obtain ⟨d, hd⟩ := hage
      have hf : ∀ p : Pg, spec.doomed now tie p.rows = spec.doomed now tie (ownRows x p) := by
        intro p
        unfold PruneSpec.doomed ownRows
        rw [hd]
        simp only [List.filter_filter]
        congr 1
        apply List.filter_congr
        intro r _
        cases hp : spec.picks r with
        | false => simp
        | true => simp [hs _ (picks_isAbout hp)]
      have key : ∀ p : Pg, ownRows x (p.prune tie now spec) =
          (ownRows x p).filter fun r => !(spec.doomed now tie (ownRows x p)).contains r.id := by
        intro p
        rw [← hf p]
        unfold ownRows Pg.prune
        simp only [List.filter_filter, Bool.and_comm]
      rw [key, key, h]
    · have hf : ∀ p : Pg, spec.doomed now tie p.rows = spec.doomed now tie (ownRows x p) := by
        intro p
        unfold PruneSpec.doomed ownRows
        cases hb : spec.pruneBy with
        | maxAge d => exact absurd ⟨d, hb⟩ hage
        | maxLength n =>
          simp only [List.filter_filter]
          congr 3
          apply List.filter_congr
          intro r _
          cases hp : spec.picks r with
          | false => simp
          | true => simp [hs _ (picks_isAbout hp)]
      have key : ∀ p : Pg, ownRows x (p.prune tie now spec) =
          (ownRows x p).filter fun r => !(spec.doomed now tie (ownRows x p)).contains r.id := by
        intro p
        rw [← hf p]
        unfold ownRows Pg.prune
        simp only [List.filter_filter, Bool.and_comm]
      rw [key, key, h]
  · rw [prune_other Hp (not_about_picks hs), prune_other Hq (not_about_picks hs), h]

theorem PgOk.init : PgOk {} := ⟨by simp [rowIds], by simp [rowIds]⟩

theorem PgOk.rows {p : Pg} (H : PgOk p) {id : Int} {f : Row → Row} (hf : ∀ r, (f r).id = r.id) :
    PgOk { p with rows := (updateRows id f p.rows).1 } :=
  ⟨by simp only [updateRows_ids hf]; exact H.nodup, by simp only [updateRows_ids hf]; exact H.bound⟩

theorem PgOk.insert {p : Pg} (H : PgOk p) (now : Time) (e : EnqueuableJob) (key : Option Int) :
    PgOk (p.insert now e key).2 := by
  unfold Pg.insert
  split
  · exact H
  · refine ⟨?_, ?_⟩
    · simp only [rowIds, List.map_append, List.map_cons, List.map_nil]
      rw [List.nodup_append]
      refine ⟨H.nodup, by simp, ?_⟩
      intro a ha b hb
      rw [List.mem_singleton.mp hb]
      rintro rfl
      have := H.bound _ ha
      simp only [EnqueuableJob.toRow] at this
      omega
    · intro i hi
      simp only [rowIds, List.map_append, List.map_cons, List.map_nil, List.mem_append,
        List.mem_singleton] at hi
      simp only
      rcases hi with hi | rfl
      · have := H.bound i hi; omega
      · simp [EnqueuableJob.toRow]

theorem PgOk.api {p : Pg} (H : PgOk p) (hash : HashFn) (tie : Int → Nat) (now : Time) (a : Api) :
    PgOk (p.api hash tie now a).2 := by
  cases a with
  | enqueue e =>
    simp only [Pg.api, Pg.enqueue]
    split
    · simp only [Pg.insertUnique]
      split
      · exact H.insert _ _ _
      · split
        · split
          · split
            · exact H
            · rename_i r _ _ rep _ _ _
              exact H.rows (f := Row.replace rep e) (fun _ => rfl)
          · exact H
        · exact H
    · exact H.insert _ _ _
  | op o =>
    simp only [Pg.api]
    by_cases hl : ∃ x, o = .load x
    · obtain ⟨x, rfl⟩ := hl
      simp only [Pg.step, Pg.load]
      split
      · exact H
      · rename_i r _ _
        have := H.rows (id := r.id) (f := Row.markExecuting now) (fun _ => rfl)
        split <;> exact this
    · rcases pg_step_cases tie now p o H.nodup (fun x h => hl ⟨x, h⟩) with h | ⟨id, f, -, hf, -, h⟩ | ⟨spec, -, h⟩
      · rw [h]; exact H
      · rw [h]; exact H.rows hf
      · rw [h]
        refine ⟨prune_nodup H.nodup, ?_⟩
        intro i hi
        obtain ⟨r, hr, rfl⟩ := mem_rowIds.mp hi
        exact H.bound _ (mem_rowIds.mpr ⟨r, (prune_mem.mp hr).1, rfl⟩)

theorem api_other {x : String} {p : Pg} (H : PgOk p) (hash : HashFn) (tie : Int → Nat) (now : Time) {a : Api}
    (h : a.Elsewhere x p) :
    ownRows x (p.api hash tie now a).2 = ownRows x p ∧ a.seenBy x (p.api hash tie now a).1 = none := by
  cases a with
  | enqueue e => exact ⟨enqueue_other hash tie now H h.1 h.2, by simp [Api.seenBy, h.1]⟩
  | op o =>
    cases o with
    | complete id => exact ⟨onRow_elsewhere (f := Row.markComplete now) (fun _ => rfl) H h, rfl⟩
    | retryable id t e => exact ⟨onRow_elsewhere (f := Row.markRetryable now t e) (fun _ => rfl) H h, rfl⟩
    | discarded id e => exact ⟨onRow_elsewhere (f := Row.markDiscarded now e) (fun _ => rfl) H h, rfl⟩
    | cancelled id e => exact ⟨onRow_elsewhere (f := Row.markCancelled now e) (fun _ => rfl) H h, rfl⟩
    | snoozed id t => exact ⟨onRow_elsewhere (f := Row.markSnoozed t) (fun _ => rfl) H h, rfl⟩
    | rerun id => exact ⟨onRow_elsewhere (f := Row.markRerunable now) (fun _ => rfl) H h, rfl⟩
    | update job => exact ⟨onRow_elsewhere (f := Row.update job) (fun _ => rfl) H h, rfl⟩
    | prune spec => exact ⟨prune_other H (not_about_picks h), rfl⟩
    | query q => exact ⟨rfl, rfl⟩
    | subscribe y => exact ⟨rfl, rfl⟩
    | notifyAll => exact ⟨rfl, rfl⟩
    | load y =>
      have : y ≠ x := h
      exact ⟨load_other H h, by simp [Api.seenBy, this]⟩

theorem api_own {x : String} {p q : Pg} (Hp : PgOk p) (Hq : PgOk q) (hash : HashFn) (tie : Int → Nat) (now : Time)
    {a : Api} (hs : a.Separate x) (h : ownRows x p = ownRows x q) (hseq : p.seq = q.seq) :
    ownRows x (p.api hash tie now a).2 = ownRows x (q.api hash tie now a).2 ∧
    a.seenBy x (p.api hash tie now a).1 = a.seenBy x (q.api hash tie now a).1 := by
  have byId : ∀ (id : Int) (f : Row → Row), (∀ r, (f r).executor = r.executor) →
      ownRows x (p.onRow id f).2 = ownRows x (q.onRow id f).2 := by
    intro id f hf; rw [onRow_own hf Hp, onRow_own hf Hq, h]
  cases a with
  | enqueue e =>
    by_cases hx : e.executor = x
    · obtain ⟨h1, h2⟩ := enqueue_own hash tie now hx hs h hseq
      exact ⟨h2, by simp only [Pg.api]; rw [h1]⟩
    · refine ⟨?_, by simp [Api.seenBy, hx]⟩
      simp only [Pg.api]
      rw [enqueue_other hash tie now Hp hx hs, enqueue_other hash tie now Hq hx hs, h]
  | op o =>
    cases o with
    | complete id => exact ⟨byId id (Row.markComplete now) (fun _ => rfl), rfl⟩
    | retryable id t e => exact ⟨byId id (Row.markRetryable now t e) (fun _ => rfl), rfl⟩
    | discarded id e => exact ⟨byId id (Row.markDiscarded now e) (fun _ => rfl), rfl⟩
    | cancelled id e => exact ⟨byId id (Row.markCancelled now e) (fun _ => rfl), rfl⟩
    | snoozed id t => exact ⟨byId id (Row.markSnoozed t) (fun _ => rfl), rfl⟩
    | rerun id => exact ⟨byId id (Row.markRerunable now) (fun _ => rfl), rfl⟩
    | update job => exact ⟨byId job.id (Row.update job) (fun _ => rfl), rfl⟩
    | prune spec => exact ⟨prune_own Hp Hq hs h, rfl⟩
    | query q => exact ⟨h, rfl⟩
    | subscribe y => exact ⟨h, rfl⟩
    | notifyAll => exact ⟨h, rfl⟩
    | load y =>
      by_cases hy : y = x
      · subst hy
        obtain ⟨h1, h2⟩ := load_own (tie := tie) (now := now) h
        exact ⟨h2, by simp only [Pg.api, Pg.step]; rw [h1]⟩
      · refine ⟨?_, by simp [Api.seenBy, hy]⟩
        simp only [Pg.api, Pg.step]
        rw [load_other Hp hy, load_other Hq hy, h]

/-- What executor `x` sees of a sequence of calls and their results. -/
def pgSees (x : String) (calls : List TApi) (results : List Res) : List (Option Res) :=
  List.zipWith (fun c r => c.call.seenBy x r) calls results

/-- C105 on Postgres: take two sequences of calls on an empty table that at every
moment either make the same call or each make one that is not the business of executor
`x`, and use ids at the same moments. Then the rows of `x` are the same in both at the
end, everything `x` saw on the way is the same (the jobs it was handed and the answers
to its enqueues), and so is the answer to every query that selects only its jobs. -/
theorem C105_on_postgres (hash : HashFn) (ties : Nat → Int → Nat) (x : String) (ps : List (TApi × TApi))
    (hside : PgSideBySide hash ties x {} {} ps) :
    ownRows x (Pg.runApi hash ties {} (ps.map (·.1))) = ownRows x (Pg.runApi hash ties {} (ps.map (·.2))) ∧
    pgSees x (ps.map (·.1)) (Pg.results hash ties {} (ps.map (·.1))) =
      pgSees x (ps.map (·.2)) (Pg.results hash ties {} (ps.map (·.2))) ∧
    ∀ (tie : Int → Nat) (q : Query),
      (∀ r : Row, sqlEval (Atom.eval r) q.render = some true → r.executor = x) →
      pgQuery tie (Pg.runApi hash ties {} (ps.map (·.1))).rows q =
        pgQuery tie (Pg.runApi hash ties {} (ps.map (·.2))).rows q := by
  have main : ∀ (ps : List (TApi × TApi)) (p q : Pg), PgOk p → PgOk q → ownRows x p = ownRows x q →
      p.seq = q.seq → PgSideBySide hash ties x p q ps →
      ownRows x (p.runApi hash ties (ps.map (·.1))) = ownRows x (q.runApi hash ties (ps.map (·.2))) ∧
      pgSees x (ps.map (·.1)) (p.results hash ties (ps.map (·.1))) =
        pgSees x (ps.map (·.2)) (q.results hash ties (ps.map (·.2))) := by
    intro ps
    induction ps with
    | nil => intro p q _ _ h _ _; exact ⟨h, rfl⟩
    | cons c ps ih =>
      obtain ⟨a, b⟩ := c
      intro p q Hp Hq h hseq hside
      obtain ⟨hnow, hact, hseq', hrest⟩ := hside
      have hstep : ownRows x (p.api hash (ties ps.length) a.now a.call).2 =
            ownRows x (q.api hash (ties ps.length) b.now b.call).2 ∧
          a.call.seenBy x (p.api hash (ties ps.length) a.now a.call).1 =
            b.call.seenBy x (q.api hash (ties ps.length) b.now b.call).1 := by
        rw [← hnow]
        rcases hact with ⟨hab, hs⟩ | ⟨ha, hb⟩
        · rw [← hab]; exact api_own Hp Hq hash _ _ hs h hseq
        · obtain ⟨a1, a2⟩ := api_other Hp hash (ties ps.length) a.now ha
          obtain ⟨b1, b2⟩ := api_other Hq hash (ties ps.length) a.now hb
          exact ⟨by rw [a1, b1, h], by rw [a2, b2]⟩
      obtain ⟨r1, r2⟩ := ih _ _ (Hp.api hash _ _ _) (Hq.api hash _ _ _) hstep.1 hseq' hrest
      simp only [List.map_cons, Pg.runApi, Pg.results, List.length_map, pgSees, List.zipWith_cons_cons]
      refine ⟨r1, ?_⟩
      unfold pgSees at r2
      rw [hstep.2, r2]
  obtain ⟨h1, h2⟩ := main ps {} {} PgOk.init PgOk.init rfl rfl hside
  refine ⟨h1, h2, ?_⟩
  intro tie q hq
  have hf : ∀ p : Pg, p.rows.filter (fun r => sqlEval (Atom.eval r) q.render == some true) =
      (ownRows x p).filter fun r => sqlEval (Atom.eval r) q.render == some true := by
    intro p
    unfold ownRows
    rw [List.filter_filter]
    apply List.filter_congr
    intro r _
    cases hm : sqlEval (Atom.eval r) q.render == some true with
    | false => simp
    | true => simp [hq r (by simpa using hm)]
  unfold pgQuery
  rw [hf, hf, h1]

/-- The two days of `twoDays` on Postgres. -/
def pgTwoDays : List (TApi × TApi) :=
  [(⟨0, .enqueue sampleUnique⟩, ⟨0, .enqueue sampleUnique⟩),
   (⟨1, .enqueue { sampleEnq with executor := "sms" }⟩,
     ⟨1, .enqueue { sampleEnq with executor := "sms", data := .str "other" }⟩),
   (⟨2, .op (.load "sms")⟩, ⟨2, .op (.cancelled 2 sampleErr)⟩),
   (⟨3, .op (.complete 2)⟩,
     ⟨3, .op (.prune { status := .cancelled, pruneBy := .maxLength 0, executors := .only ["sms"] })⟩),
   (⟨4, .enqueue sampleUnique⟩, ⟨4, .enqueue sampleUnique⟩),
   (⟨5, .op (.load "mail")⟩, ⟨5, .op (.load "mail")⟩)]

private theorem pgTwoDays_side :
    PgSideBySide (fun _ _ _ => 0) (fun _ i => i.toNat) "mail" {} {} pgTwoDays := by
  have plain : ∀ y d, EnqueuableJob.Scoped { sampleEnq with executor := y, data := d } := by
    intro y d uc h; cases h
  have uniq : EnqueuableJob.Scoped sampleUnique := by
    intro uc h; cases h; rfl
  refine ⟨rfl, Or.inl ⟨rfl, uniq⟩, rfl, rfl, Or.inr ⟨⟨by decide, plain _ _⟩, by decide, plain _ _⟩, rfl,
    rfl, Or.inr ⟨?_, ?_⟩, rfl, rfl, Or.inr ⟨?_, ?_⟩, rfl, rfl, Or.inl ⟨rfl, uniq⟩, rfl,
    rfl, Or.inl ⟨rfl, trivial⟩, rfl, trivial⟩
  · show "sms" ≠ "mail"; decide
  · show ∀ r ∈ _, _ → _; decide
  · show ∀ r ∈ _, _ → _; decide
  · show ¬ PruneSpec.IsAbout _ _; simp [PruneSpec.IsAbout]

/-- The tables differ, yet `mail` is handed the same job and sees the same. -/
example :
    let hash : HashFn := fun _ _ _ => 0
    let ties : Nat → Int → Nat := fun _ i => i.toNat
    (Pg.runApi hash ties {} (pgTwoDays.map (·.1))).rows ≠ (Pg.runApi hash ties {} (pgTwoDays.map (·.2))).rows ∧
    (ownRows "mail" (Pg.runApi hash ties {} (pgTwoDays.map (·.1)))).map (·.status) = [.executing] ∧
    ownRows "mail" (Pg.runApi hash ties {} (pgTwoDays.map (·.1))) =
      ownRows "mail" (Pg.runApi hash ties {} (pgTwoDays.map (·.2))) := by
  intro hash ties
  exact ⟨by decide, by decide, (C105_on_postgres hash ties "mail" pgTwoDays pgTwoDays_side).1⟩

/-- A scoped query selects only jobs of its executor. -/
example (r : Row) (h : sqlEval (Atom.eval r)
    (Query.and [.executorEqual "mail", .statusEqual .scheduled]).render = some true) :
    r.executor = "mail" := by
  simp [Query.render, Query.renderSep, sqlEval, sqlOperand, sqlOperator, Atom.eval] at h
  exact h.1

end Rexecutor
