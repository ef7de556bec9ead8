import Verif.Spec.Pg
import Verif.Spec.PgQuery
import Verif.Lemmas.Pg

/-! # C47: pruning on Postgres -/

namespace Rexecutor

private theorem picks_iff {s : PruneSpec} {r : Row} : s.picks r = true ↔ s.SelectsRow r := by
  unfold PruneSpec.picks PruneSpec.SelectsRow
  rw [Bool.and_eq_true, beq_iff_eq]
  refine and_congr Iff.rfl ?_
  cases s.executors with
  | except es =>
    simp only [List.all_eq_true, bne_iff_ne]
    exact ⟨fun h m => h _ m rfl, fun h e m he => h (he ▸ m)⟩
  | only es =>
    simp only [List.any_eq_true, beq_iff_eq]
    exact ⟨fun ⟨e, m, h⟩ => h ▸ m, fun h => ⟨_, h, rfl⟩⟩

private theorem inPast_iff {s : JobStatus} : s.inPast = true ↔ s.Finished := by
  cases s <;> simp [JobStatus.inPast, JobStatus.Finished]

private theorem not_inPast {s : JobStatus} (h : ¬ s.Finished) : s.inPast = false := by
  cases hs : s.inPast
  · rfl
  · exact (h (inPast_iff.mp hs)).elim

private theorem id_mem {rows l : List Row} (hn : (rowIds rows).Nodup) (hl : ∀ r ∈ l, r ∈ rows) {r : Row} (hr : r ∈ rows) :
    r.id ∈ l.map (·.id) ↔ r ∈ l := by
  rw [List.mem_map]
  constructor
  · rintro ⟨q, hq, he⟩
    rw [← row_unique hn (hl q hq) hr he]; exact hq
  · exact fun h => ⟨r, h, rfl⟩

private theorem prune_iff {tie : Int → Nat} {now : Time} {spec : PruneSpec} {p : Pg} {r : Row} :
    r ∈ (p.prune tie now spec).rows ↔ r ∈ p.rows ∧ r.id ∉ spec.doomed now tie p.rows := by
  unfold Pg.prune
  rw [List.mem_filter]
  simp

private theorem doomed_maxLength {tie : Int → Nat} {now : Time} {spec : PruneSpec} {n : Nat} {rows : List Row}
    (hn : (rowIds rows).Nodup) (h : spec.pruneBy = .maxLength n) {r : Row} (hr : r ∈ rows) :
    r.id ∈ spec.doomed now tie rows ↔
      r ∈ (sortBy (keepFirst spec.status.inPast tie) (rows.filter fun r => spec.picks r)).drop n := by
  unfold PruneSpec.doomed
  rw [h]
  refine id_mem hn ?_ hr
  intro q hq
  have := (sortBy_perm _ _).mem_iff.mp (List.mem_of_mem_drop hq)
  exact (List.mem_filter.mp this).1

/-- **C47, frame.** Whatever the specification: every row left was there and is
unchanged, in the same order, and every row not selected is left; ids are not reused. -/
theorem C47_frame (tie : Int → Nat) (now : Time) (spec : PruneSpec) (p : Pg)
    (hn : (p.rows.map (·.id)).Nodup) :
    (p.step tie now (.prune spec)).2.rows.Sublist p.rows ∧
    (∀ r ∈ p.rows, ¬ spec.SelectsRow r → r ∈ (p.step tie now (.prune spec)).2.rows) ∧
    (p.step tie now (.prune spec)).2.seq = p.seq ∧ (p.step tie now (.prune spec)).1 = .unit := by
  refine ⟨List.filter_sublist, ?_, rfl, rfl⟩
  intro r hr hs
  have hsub : ∀ q ∈ p.rows, ∀ b : Bool, (spec.picks q && b) = true → q ≠ r := by
    rintro q - b hb rfl
    rw [Bool.and_eq_true] at hb
    exact hs (picks_iff.mp hb.1)
  refine prune_iff.mpr ⟨hr, ?_⟩
  cases hp : spec.pruneBy with
  | maxAge d =>
    unfold PruneSpec.doomed
    rw [hp]
    intro hm
    rw [id_mem hn (fun q hq => (List.mem_filter.mp hq).1) hr, List.mem_filter] at hm
    exact hsub r hr _ hm.2 rfl
  | maxLength n =>
    rw [doomed_maxLength hn hp hr]
    intro hm
    have := (sortBy_perm _ _).mem_iff.mp (List.mem_of_mem_drop hm)
    exact hs (picks_iff.mp (List.mem_filter.mp this).2)

/-- **C47, max age.** Exactly the selected rows that were scheduled more than the age
ago, for finished statuses, or are scheduled more than the age ahead, otherwise, are
removed. -/
theorem C47_max_age (tie : Int → Nat) (now : Time) (spec : PruneSpec) (d : Delta) (p : Pg)
    (hn : (p.rows.map (·.id)).Nodup) (h : spec.pruneBy = .maxAge d) (r : Row) :
    r ∈ (p.step tie now (.prune spec)).2.rows ↔
      r ∈ p.rows ∧ ¬ (spec.SelectsRow r ∧
        if spec.status.Finished then r.scheduledAt < pgTime (now - d) else r.scheduledAt > pgTime (now + d)) := by
  refine prune_iff.trans (and_congr_right ?_)
  intro hr
  unfold PruneSpec.doomed
  rw [h]
  rw [id_mem hn (fun q hq => (List.mem_filter.mp hq).1) hr, List.mem_filter, Bool.and_eq_true, picks_iff]
  by_cases hf : spec.status.Finished
  · simp [hf, inPast_iff.mpr hf, hr]
  · simp [hf, not_inPast hf, hr]

example : ((⟨[{ sampleRow 1 with status := .complete }, { sampleRow 2 with status := .complete, scheduledAt := 9000 },
      { sampleRow 3 with status := .complete, executor := "other" }, sampleRow 4], 4⟩ : Pg).step Int.toNat 10000
      (.prune { status := .complete, executors := .only ["mail"], pruneBy := .maxAge 5000 })).2.rows.map (·.id) =
    [2, 3, 4] := by decide

/-- What a row has that is kept rather than another. -/
private theorem keepFirst_total (b : Bool) (tie : Int → Nat) (x y : Row) :
    keepFirst b tie x y = true ∨ keepFirst b tie y x = true := by
  unfold keepFirst
  cases b <;>
    simp only [if_true, Bool.false_eq_true, if_false, Bool.or_eq_true, Bool.and_eq_true, decide_eq_true_eq, beq_iff_eq] <;>
    (simp only [Time]; omega)

private theorem keepFirst_trans (b : Bool) (tie : Int → Nat) (x y z : Row) (h1 : keepFirst b tie x y = true)
    (h2 : keepFirst b tie y z = true) : keepFirst b tie x z = true := by
  unfold keepFirst at *
  cases b <;>
    simp only [if_true, Bool.false_eq_true, if_false, Bool.or_eq_true, Bool.and_eq_true, decide_eq_true_eq, beq_iff_eq] at * <;>
    (simp only [Time] at *; omega)

/-- **C47, max length.** With limit `n` exactly `min n selected` selected rows are left,
and no removed one was better: for finished statuses scheduled later, otherwise
scheduled earlier, than one that is left. -/
theorem C47_max_length (tie : Int → Nat) (now : Time) (spec : PruneSpec) (n : Nat) (p : Pg)
    (hn : (p.rows.map (·.id)).Nodup) (h : spec.pruneBy = .maxLength n) :
    ((p.step tie now (.prune spec)).2.rows.filter fun r => decide (spec.SelectsRow r)).length =
      min n (p.rows.filter fun r => decide (spec.SelectsRow r)).length ∧
    ∀ kept ∈ (p.step tie now (.prune spec)).2.rows, spec.SelectsRow kept →
    ∀ gone ∈ p.rows, gone ∉ (p.step tie now (.prune spec)).2.rows →
      if spec.status.Finished then gone.scheduledAt ≤ kept.scheduledAt else kept.scheduledAt ≤ gone.scheduledAt := by
  let sorted := sortBy (keepFirst spec.status.inPast tie) (p.rows.filter fun r => spec.picks r)
  have hfil : (p.rows.filter fun r => decide (spec.SelectsRow r)) = p.rows.filter fun r => spec.picks r := by
    apply List.filter_congr
    intro r _
    rw [Bool.eq_iff_iff, decide_eq_true_iff, picks_iff]
  have hperm : sorted.Perm (p.rows.filter fun r => spec.picks r) := sortBy_perm _ _
  have hrn : p.rows.Nodup := (List.pairwise_map.mp hn).imp (fun h e => h (by rw [e]))
  have hsn : sorted.Nodup := hperm.nodup_iff.mpr (hrn.filter _)
  have hsplit : sorted = sorted.take n ++ sorted.drop n := (List.take_append_drop n sorted).symm
  have hdisj : ∀ x ∈ sorted.take n, x ∉ sorted.drop n := by
    intro x h1 h2
    rw [hsplit, List.nodup_append] at hsn
    exact hsn.2.2 x h1 x h2 rfl
  have hleft : ∀ r, r ∈ (p.step tie now (.prune spec)).2.rows ↔ r ∈ p.rows ∧ r ∉ sorted.drop n := by
    intro r
    refine prune_iff.trans (and_congr_right fun hr => ?_)
    rw [doomed_maxLength hn h hr]
  have hkept : ∀ r, (r ∈ (p.step tie now (.prune spec)).2.rows ∧ spec.SelectsRow r) ↔ r ∈ sorted.take n := by
    intro r
    rw [hleft]
    have hm : r ∈ sorted ↔ r ∈ p.rows ∧ spec.SelectsRow r := by
      rw [hperm.mem_iff, List.mem_filter, picks_iff]
    constructor
    · rintro ⟨⟨h1, h2⟩, h3⟩
      have := hm.mpr ⟨h1, h3⟩
      rw [hsplit, List.mem_append] at this
      exact this.resolve_right h2
    · intro h1
      have := hm.mp (List.mem_of_mem_take h1)
      exact ⟨⟨this.1, hdisj r h1⟩, this.2⟩
  constructor
  · have hp : ((p.step tie now (.prune spec)).2.rows.filter fun r => decide (spec.SelectsRow r)).Perm (sorted.take n) := by
      refine (List.perm_ext_iff_of_nodup ((hrn.sublist List.filter_sublist).filter _)
        (hsn.sublist (List.take_sublist _ _))).mpr ?_
      intro r
      rw [← hkept r, List.mem_filter, decide_eq_true_iff]
      rfl
    rw [hp.length_eq, hfil, List.length_take, hperm.length_eq]
  · intro kept hk hks gone hg hgn
    have hk' := (hkept kept).mp ⟨hk, hks⟩
    have hg' : gone ∈ sorted.drop n := by
      by_cases hd : gone ∈ sorted.drop n
      · exact hd
      · exact (hgn ((hleft gone).mpr ⟨hg, hd⟩)).elim
    have hsort := sortBy_sorted (keepFirst_total spec.status.inPast tie) (keepFirst_trans spec.status.inPast tie)
      (p.rows.filter fun r => spec.picks r)
    change sorted.Pairwise _ at hsort
    rw [hsplit, List.pairwise_append] at hsort
    have := hsort.2.2 kept hk' gone hg'
    unfold keepFirst at this
    by_cases hf : spec.status.Finished
    · rw [if_pos hf]
      rw [inPast_iff.mpr hf] at this
      simp only [if_true, Bool.or_eq_true, Bool.and_eq_true, decide_eq_true_eq, beq_iff_eq] at this
      simp only [Time] at *; omega
    · rw [if_neg hf]
      rw [not_inPast hf] at this
      simp only [Bool.false_eq_true, if_false, Bool.or_eq_true, Bool.and_eq_true, decide_eq_true_eq, beq_iff_eq] at this
      simp only [Time] at *; omega

/-- Keep one completed job of any executor but `other`: the one scheduled last. -/
example : ((⟨[{ sampleRow 1 with status := .complete }, { sampleRow 2 with status := .complete, scheduledAt := 9000 },
      { sampleRow 3 with status := .complete, executor := "other" }, sampleRow 4], 4⟩ : Pg).step Int.toNat 10000
      (.prune { status := .complete, executors := .except ["other"], pruneBy := .maxLength 1 })).2.rows.map (·.id) =
    [2, 3, 4] := by decide

/-- **C47, in every history.** The hypothesis of the other theorems, that ids are
unique, holds in every interleaving of any calls, and a prune statement among them
does exactly what it does alone, or waits for locked rows. -/
theorem C47_interleaved (hash : HashFn) (as : List TPgAct) (tie : Int → Nat) (now : Time) (spec : PruneSpec) :
    ((PgConc.run hash {} as).pg.rows.map (·.id)).Nodup ∧
    (((PgConc.run hash {} as).step hash tie now (.stmt (.prune spec))).2.pg = ((PgConc.run hash {} as).pg.step tie now (.prune spec)).2 ∨
      ((PgConc.run hash {} as).step hash tie now (.stmt (.prune spec))).1 = .blocked ∧
      ((PgConc.run hash {} as).step hash tie now (.stmt (.prune spec))).2 = PgConc.run hash {} as) := by
  refine ⟨(pgInv hash as).nodup, ?_⟩
  simp only [PgConc.step]
  split
  · exact .inr ⟨rfl, rfl⟩
  · exact .inl rfl

end Rexecutor
