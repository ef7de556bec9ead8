import Verif.Model.GlobalBackend

/-! # C39: the global backend is set once -/

namespace Rexecutor

/-- A `set` returned `Ok`. -/
def GEv.isOk : GEv → Bool
  | .returned _ ok => ok
  | _ => false

/-- The event shows that the global backend is `b`: a `set` of it succeeded or it was used. -/
def GEv.shows (b : Nat) : GEv → Bool
  | .returned b' ok => ok && b' == b
  | .used (some b') => b' == b
  | _ => false

/-- The call has the permit or has succeeded. -/
private def SetCall.won : SetCall → Bool
  | .holding _ => true
  | .done _ ok => ok
  | _ => false

private def SetCall.succeeded : SetCall → Bool
  | .done _ ok => ok
  | _ => false

/-- The call has returned. -/
def SetCall.isDone : SetCall → Bool
  | .done _ _ => true
  | _ => false

private structure GInv (g : Global) : Prop where
  one : g.calls.countP SetCall.won = if g.cell.permitTaken then 1 else 0
  value : ∀ b, SetCall.done b true ∈ g.calls ↔ g.cell.value = some b
  lost : ∀ b, SetCall.done b false ∈ g.calls → g.cell.permitTaken = true

private theorem countP_set {l : List SetCall} {i : Nat} {p p' : SetCall} (h : l[i]? = some p) (f : SetCall → Bool) :
    (l.set i p').countP f + (if f p then 1 else 0) = l.countP f + (if f p' then 1 else 0) := by
  obtain ⟨hi, rfl⟩ := List.getElem?_eq_some_iff.mp h
  rw [List.countP_set hi]
  have : f l[i] = true → 0 < l.countP f := fun hf =>
    List.countP_pos_iff.mpr ⟨_, List.getElem_mem hi, hf⟩
  by_cases hf : f l[i] = true
  · have := this hf; simp only [hf, if_true]; omega
  · simp only [hf, if_false]; simp

private theorem mem_set {l : List SetCall} {i : Nat} {p p' q : SetCall} (h : l[i]? = some p) :
    q ∈ l.set i p' → q = p' ∨ q ∈ l := by
  intro hq
  rcases List.mem_or_eq_of_mem_set hq with h | h
  · exact .inr h
  · exact .inl h

private theorem mem_set' {l : List SetCall} {i : Nat} {p p' q : SetCall} (h : l[i]? = some p) (hne : q ≠ p)
    (hq : q ∈ l) : q ∈ l.set i p' := by
  obtain ⟨n, hn⟩ := List.mem_iff_getElem?.mp hq
  refine List.mem_iff_getElem?.mpr ⟨n, ?_⟩
  rw [List.getElem?_set_ne, hn]
  rintro rfl
  rw [h] at hn
  exact hne (Option.some.inj hn).symm

private theorem self_set {l : List SetCall} {i : Nat} {p p' : SetCall} (h : l[i]? = some p) : p' ∈ l.set i p' := by
  have hi := (List.getElem?_eq_some_iff.mp h).1
  exact List.mem_iff_getElem?.mpr ⟨i, by simp [hi]⟩

private theorem ginv_step {g : Global} (H : GInv g) (a : GAct) : GInv (g.step a).2 := by
  obtain ⟨h1, h2, h3⟩ := H
  cases a with
  | set b =>
    refine ⟨?_, fun b' => ?_, fun b' hb => ?_⟩
    · show (g.calls ++ [SetCall.start b]).countP SetCall.won = if g.cell.permitTaken then 1 else 0
      rw [List.countP_append, h1]; rfl
    · simpa [Global.step] using h2 b'
    · simp only [Global.step, List.mem_append, List.mem_singleton, reduceCtorEq, or_false] at hb
      exact h3 b' hb
  | use => exact ⟨h1, h2, h3⟩
  | advance i =>
    simp only [Global.step]
    cases hp : g.calls[i]? with
    | none => exact ⟨h1, h2, h3⟩
    | some p =>
      cases p with
      | start b =>
        simp only [OnceCell.advance]
        cases hv : g.cell.value with
        | some v =>
          have hc := countP_set (p' := .done b false) hp SetCall.won
          simp only [SetCall.won, Bool.false_eq_true, if_false, Nat.add_zero] at hc
          have hv' := (h2 v).mpr hv
          have hpos : 0 < g.calls.countP SetCall.won := List.countP_pos_iff.mpr ⟨_, hv', rfl⟩
          have hpt : g.cell.permitTaken = true := by
            cases hq : g.cell.permitTaken with
            | true => rfl
            | false => rw [h1, hq] at hpos; simp at hpos
          refine ⟨by simp only [hc]; exact h1, fun b' => ?_, fun _ _ => hpt⟩
          rw [← h2 b']
          constructor
          · intro h
            rcases mem_set hp h with h | h
            · simp at h
            · exact h
          · exact mem_set' hp (by simp)
        | none =>
          have hc := countP_set (p' := .checked b) hp SetCall.won
          simp only [SetCall.won, Bool.false_eq_true, if_false, Nat.add_zero] at hc
          refine ⟨by simp only [hc]; exact h1, fun b' => ?_, fun b' h => ?_⟩
          · rw [← h2 b']
            constructor
            · intro h
              rcases mem_set hp h with h | h
              · simp at h
              · exact h
            · exact mem_set' hp (by simp)
          · rcases mem_set hp h with h | h
            · simp at h
            · exact h3 b' h
      | checked b =>
        simp only [OnceCell.advance]
        cases hq : g.cell.permitTaken with
        | true =>
          have hc := countP_set (p' := .done b false) hp SetCall.won
          simp only [SetCall.won, Bool.false_eq_true, if_false, Nat.add_zero] at hc
          simp only [if_true]
          refine ⟨by simp only [hc]; exact h1, fun b' => ?_, fun _ _ => hq⟩
          rw [← h2 b']
          constructor
          · intro h
            rcases mem_set hp h with h | h
            · simp at h
            · exact h
          · exact mem_set' hp (by simp)
        | false =>
          have hc := countP_set (p' := .holding b) hp SetCall.won
          simp only [SetCall.won, Bool.false_eq_true, if_false, Nat.add_zero, if_true] at hc
          simp only [Bool.false_eq_true, if_false]
          refine ⟨by simp only [hc, h1, hq]; simp, fun b' => ?_, fun _ _ => rfl⟩
          rw [← h2 b']
          constructor
          · intro h
            rcases mem_set hp h with h | h
            · simp at h
            · exact h
          · exact mem_set' hp (by simp)
      | holding b =>
        simp only [OnceCell.advance]
        have hc := countP_set (p' := .done b true) hp SetCall.won
        simp only [SetCall.won, if_true, Nat.add_right_cancel_iff] at hc
        have hpt : g.cell.permitTaken = true := by
          cases hq : g.cell.permitTaken with
          | true => rfl
          | false =>
            rw [hq] at h1
            have := List.countP_pos_iff.mpr ⟨_, List.mem_of_getElem? hp, (rfl : SetCall.won (.holding b) = true)⟩
            simp at h1; simp at this
            obtain ⟨x, hx, hw⟩ := this
            rw [h1 x hx] at hw; simp at hw
        refine ⟨by simp only [hc]; exact h1, fun b' => ?_, fun b' h => ?_⟩
        · simp only [Option.some.injEq]
          constructor
          · intro h
            rcases mem_set hp h with h | h
            · simp only [SetCall.done.injEq, and_true] at h; exact h.symm
            · -- another call would have won too
              exfalso
              rw [hpt] at h1
              have hpos : 0 < (g.calls.eraseIdx i).countP SetCall.won := by
                refine List.countP_pos_iff.mpr ⟨_, ?_, (rfl : SetCall.won (.done b' true) = true)⟩
                obtain ⟨n, hn⟩ := List.mem_iff_getElem?.mp h
                have hni : n ≠ i := by rintro rfl; rw [hp] at hn; simp at hn
                rw [List.mem_eraseIdx_iff_getElem?]
                exact ⟨n, hni, hn⟩
              have hcount : g.calls.countP SetCall.won = (g.calls.eraseIdx i).countP SetCall.won + 1 := by
                obtain ⟨hi, he⟩ := List.getElem?_eq_some_iff.mp hp
                have hsplit : g.calls = g.calls.take i ++ g.calls[i] :: g.calls.drop (i + 1) := by simp
                rw [List.eraseIdx_eq_take_drop_succ]
                conv => lhs; rw [hsplit]
                rw [he]
                simp only [List.countP_append, List.countP_cons, SetCall.won, if_true]; omega
              simp at h1; omega
          · intro h
            subst h
            exact self_set hp
        · rcases mem_set hp h with h | h
          · simp at h
          · exact h3 b' h
      | done b ok =>
        simp only [OnceCell.advance]
        have : g.calls.set i (.done b ok) = g.calls := by
          refine List.ext_getElem? fun n => ?_
          rw [List.getElem?_set]
          split
          · rename_i he
            subst he
            rw [hp, if_pos (List.getElem?_eq_some_iff.mp hp).1]
          · rfl
        rw [this]
        exact ⟨h1, h2, h3⟩

private theorem ginv_run {g : Global} (H : GInv g) (as : List GAct) : GInv (g.run as) := by
  induction as generalizing g with
  | nil => exact H
  | cons a as ih => exact ih (ginv_step H a)

private theorem ginv_init : GInv {} := ⟨by simp, by simp, by simp⟩

private theorem ok_step (g : Global) (a : GAct) :
    [(g.step a).1].countP GEv.isOk + g.calls.countP SetCall.succeeded =
      (g.step a).2.calls.countP SetCall.succeeded := by
  cases a with
  | set b => simp [Global.step, GEv.isOk, SetCall.succeeded]
  | use => simp [Global.step, GEv.isOk]
  | advance i =>
    simp only [Global.step]
    cases hp : g.calls[i]? with
    | none => simp [GEv.isOk]
    | some p =>
      cases p with
      | start b =>
        simp only [OnceCell.advance]
        cases g.cell.value <;> simp only
        · have := countP_set (p' := .checked b) hp SetCall.succeeded
          simp_all [GEv.isOk, SetCall.succeeded]
        · have := countP_set (p' := .done b false) hp SetCall.succeeded
          simp_all [GEv.isOk, SetCall.succeeded]
      | checked b =>
        simp only [OnceCell.advance]
        split
        · have := countP_set (p' := .done b false) hp SetCall.succeeded
          simp_all [GEv.isOk, SetCall.succeeded]
        · have := countP_set (p' := .holding b) hp SetCall.succeeded
          simp_all [GEv.isOk, SetCall.succeeded]
      | holding b =>
        simp only [OnceCell.advance]
        have := countP_set (p' := .done b true) hp SetCall.succeeded
        simp only [SetCall.succeeded, Bool.false_eq_true, if_false, if_true, Nat.add_zero] at this
        simp [GEv.isOk, this]; omega
      | done b ok =>
        simp only [OnceCell.advance]
        have := countP_set (p' := .done b ok) hp SetCall.succeeded
        simp [GEv.isOk]; omega

private theorem ok_run (g : Global) (as : List GAct) :
    (g.trace as).countP GEv.isOk + g.calls.countP SetCall.succeeded =
      (g.run as).calls.countP SetCall.succeeded := by
  induction as generalizing g with
  | nil => simp [Global.trace, Global.run]
  | cons a as ih =>
    have h1 := ok_step g a
    have h2 := ih (g.step a).2
    simp only [Global.trace, Global.run]
    rw [List.countP_cons] at h1 ⊢
    simp only [List.countP_nil] at h1
    omega

/-- **C39.** However many threads set the global backend and however their steps interleave,
at most one `set` succeeds. -/
theorem C39_once (as : List GAct) : (({} : Global).trace as).countP GEv.isOk ≤ 1 := by
  have h1 := ok_run {} as
  have h2 := (ginv_run ginv_init as).one
  have h3 : (({} : Global).run as).calls.countP SetCall.succeeded ≤ (({} : Global).run as).calls.countP SetCall.won := by
    apply List.countP_mono_left
    intro c _ hc
    cases c <;> simp_all [SetCall.succeeded, SetCall.won]
  simp only [List.countP_nil, Nat.add_zero] at h1
  split at h2 <;> omega

/-- **C39, someone succeeds.** Once at least one `set` call has been made and all of them have
returned, exactly one has succeeded. -/
theorem C39_someone_succeeds (as : List GAct) (hne : (({} : Global).run as).calls ≠ [])
    (hdone : ∀ c ∈ (({} : Global).run as).calls, c.isDone = true) :
    (({} : Global).trace as).countP GEv.isOk = 1 := by
  have h1 := ok_run {} as
  obtain ⟨h2, h3, h4⟩ := ginv_run ginv_init as
  have h5 : (({} : Global).run as).calls.countP SetCall.succeeded = (({} : Global).run as).calls.countP SetCall.won := by
    apply List.countP_congr
    intro c hc
    have := hdone c hc
    cases c <;> simp_all [SetCall.succeeded, SetCall.won, SetCall.isDone]
  obtain ⟨c, hc⟩ := List.exists_mem_of_ne_nil _ hne
  have hd := hdone c hc
  have hpt : (({} : Global).run as).cell.permitTaken = true := by
    cases c with
    | done b ok =>
      cases ok with
      | false => exact h4 b hc
      | true =>
        have hpos : 0 < (({} : Global).run as).calls.countP SetCall.won :=
          List.countP_pos_iff.mpr ⟨_, hc, rfl⟩
        cases hq : (({} : Global).run as).cell.permitTaken with
        | true => rfl
        | false => rw [h2, hq] at hpos; simp at hpos
    | _ => simp [SetCall.isDone] at hd
  rw [hpt] at h2
  simp only [List.countP_nil, Nat.add_zero] at h1
  simp only [if_true] at h2
  omega

private theorem value_step {g : Global} (H : GInv g) {b : Nat} (hv : g.cell.value = some b) (a : GAct) :
    (g.step a).2.cell.value = some b := by
  have H' := ginv_step H a
  rw [← H'.value]
  have hm := (H.value b).mpr hv
  cases a with
  | set b' => simp [Global.step, hm]
  | use => exact hm
  | advance i =>
    simp only [Global.step]
    cases hp : g.calls[i]? with
    | none => exact hm
    | some p =>
      simp only
      by_cases he : SetCall.done b true = p
      · subst he
        simp only [OnceCell.advance]
        exact self_set hp
      · exact mem_set' hp he hm

private theorem value_run {g : Global} (H : GInv g) {b : Nat} (hv : g.cell.value = some b) (as : List GAct) :
    (g.run as).cell.value = some b := by
  induction as generalizing g with
  | nil => exact hv
  | cons a as ih => exact ih (ginv_step H a) (value_step H hv a)

private theorem shows_value {g : Global} {a : GAct} {b : Nat} (h : (g.step a).1.shows b = true) :
    (g.step a).2.cell.value = some b := by
  cases a with
  | set b' => simp [Global.step, GEv.shows] at h
  | use =>
    simp only [Global.step] at h ⊢
    unfold GEv.shows at h
    split at h
    · simp at *
    · rename_i b' he
      simp only [GEv.used.injEq] at he
      rw [he]; simpa using h
    · simp at h
  | advance i =>
    simp only [Global.step] at h ⊢
    cases hp : g.calls[i]? with
    | none => rw [hp] at h; simp [GEv.shows] at h
    | some p =>
      rw [hp] at h
      cases p with
      | start b' =>
        simp only [OnceCell.advance] at h
        cases hv : g.cell.value <;> simp [hv, GEv.shows] at h
      | checked b' =>
        simp only [OnceCell.advance] at h
        split at h <;> simp [GEv.shows] at h
      | holding b' => simpa [OnceCell.advance, GEv.shows] using h
      | done b' ok => simp [OnceCell.advance, GEv.shows] at h

private theorem trace_split (g : Global) {as : List GAct} {pre post : List GEv} {e : GEv}
    (h : g.trace as = pre ++ e :: post) :
    ∃ as₁ a as₂, as = as₁ ++ a :: as₂ ∧ pre = g.trace as₁ ∧ e = ((g.run as₁).step a).1 ∧
      post = (((g.run as₁).step a).2).trace as₂ := by
  induction pre generalizing g as with
  | nil =>
    cases as with
    | nil => simp [Global.trace] at h
    | cons a as =>
      simp only [Global.trace, List.nil_append, List.cons.injEq] at h
      exact ⟨[], a, as, rfl, rfl, h.1.symm, h.2.symm⟩
  | cons p pre ih =>
    cases as with
    | nil => simp [Global.trace] at h
    | cons a as =>
      simp only [Global.trace, List.cons_append, List.cons.injEq] at h
      obtain ⟨as₁, a', as₂, h1, h2, h3, h4⟩ := ih _ h.2
      exact ⟨a :: as₁, a', as₂, by rw [h1]; rfl, by rw [h2, ← h.1]; rfl, h3, h4⟩

/-- **C39, every use reaches the same backend.** Once a `set` of `b` has returned `Ok`, or some
use has reached `b`, every later use reaches `b` and every later `set` that returns fails. -/
theorem C39_stable (as : List GAct) (pre mid post : List GEv) (e f : GEv) (b : Nat)
    (h : ({} : Global).trace as = pre ++ e :: (mid ++ f :: post)) (he : e.shows b = true) :
    (∀ r, f = .used r → r = some b) ∧ (e.isOk = true → ∀ b' ok, f = .returned b' ok → ok = false) ∧
    (∀ b', f = .returned b' true → b' = b) := by
  obtain ⟨as₁, a, as₂, h1, h2, h3, h4⟩ := trace_split {} h
  have H := ginv_run ginv_init as₁
  rw [h3] at he
  have hv := shows_value he
  obtain ⟨bs₁, a', bs₂, g1, g2, g3, g4⟩ := trace_split _ h4.symm
  have hv' := value_run (ginv_step H a) hv bs₁
  have H' := ginv_run (ginv_step H a) bs₁
  generalize Global.run (Global.step (Global.run {} as₁) a).snd bs₁ = g' at *
  refine ⟨?_, ?_, ?_⟩
  · rintro r rfl
    cases a' with
    | use =>
      simp only [Global.step, GEv.used.injEq] at g3
      rw [g3, hv']
    | set x => simp [Global.step] at g3
    | advance i =>
      exfalso
      simp only [Global.step] at g3
      split at g3
      · simp at g3
      · rename_i p _
        cases p with
        | start x => simp only [OnceCell.advance] at g3; split at g3 <;> simp at g3
        | checked x => simp only [OnceCell.advance] at g3; split at g3 <;> simp at g3
        | holding x => simp [OnceCell.advance] at g3
        | done x y => simp [OnceCell.advance] at g3
  · rintro hok b' ok rfl
    cases ok with
    | false => rfl
    | true =>
      have := C39_once as
      rw [h] at this
      have h1' : GEv.isOk (.returned b' true) = true := rfl
      simp only [List.countP_append, List.countP_cons, hok, h1', if_true] at this
      omega
  · rintro b' rfl
    have hsh : (g'.step a').1.shows b' = true := by
      rw [← g3]; simp [GEv.shows]
    have e1 := shows_value hsh
    have e2 := value_step H' hv' a'
    rw [e1] at e2
    exact Option.some.inj e2

/-- **C39, uses before.** A use only ever reaches a backend that some earlier `set` was called
with: before any `set` every use fails. -/
theorem C39_only_set_backends (as : List GAct) (pre post : List GEv) (b : Nat)
    (h : ({} : Global).trace as = pre ++ .used (some b) :: post) : GEv.called b ∈ pre := by
  have key : ∀ (as : List GAct) (g : Global) (H : GInv g), ∀ b, (.start b ∈ (g.run as).calls ∨ .checked b ∈ (g.run as).calls ∨
      .holding b ∈ (g.run as).calls ∨ .done b true ∈ (g.run as).calls) → GEv.called b ∈ g.trace as ∨
      (.start b ∈ g.calls ∨ .checked b ∈ g.calls ∨ .holding b ∈ g.calls ∨ .done b true ∈ g.calls) := by
    intro as
    induction as with
    | nil => intro g _ b h; exact .inr h
    | cons a as ih =>
      intro g H b h
      rcases ih _ (ginv_step H a) b h with h | h
      · exact .inl (List.mem_cons_of_mem _ h)
      · cases a with
        | set b' =>
          simp only [Global.step, List.mem_append, List.mem_singleton, SetCall.start.injEq, reduceCtorEq, or_false] at h
          by_cases hb : b = b'
          · exact .inl (by simp [Global.trace, Global.step, hb])
          · rcases h with (h | h) | h | h | h
            · exact .inr (.inl h)
            · exact absurd h hb
            · exact .inr (.inr (.inl h))
            · exact .inr (.inr (.inr (.inl h)))
            · exact .inr (.inr (.inr (.inr h)))
        | use => exact .inr h
        | advance i =>
          right
          simp only [Global.step] at h
          cases hp : g.calls[i]? with
          | none => rw [hp] at h; exact h
          | some p =>
            rw [hp] at h
            have hm := List.mem_of_getElem? hp
            simp only at h
            have fin : ∀ p', (p' = .start b ∨ p' = .checked b ∨ p' = .holding b ∨ p' = .done b true →
                (.start b ∈ g.calls ∨ .checked b ∈ g.calls ∨ .holding b ∈ g.calls ∨ .done b true ∈ g.calls)) →
                (.start b ∈ g.calls.set i p' ∨ .checked b ∈ g.calls.set i p' ∨ .holding b ∈ g.calls.set i p' ∨
                  .done b true ∈ g.calls.set i p') →
                (.start b ∈ g.calls ∨ .checked b ∈ g.calls ∨ .holding b ∈ g.calls ∨ .done b true ∈ g.calls) := by
              intro p' hp' h
              rcases h with h | h | h | h
              · rcases mem_set hp h with h | h
                · exact hp' (.inl h.symm)
                · exact .inl h
              · rcases mem_set hp h with h | h
                · exact hp' (.inr (.inl h.symm))
                · exact .inr (.inl h)
              · rcases mem_set hp h with h | h
                · exact hp' (.inr (.inr (.inl h.symm)))
                · exact .inr (.inr (.inl h))
              · rcases mem_set hp h with h | h
                · exact hp' (.inr (.inr (.inr h.symm)))
                · exact .inr (.inr (.inr h))
            cases p with
            | start x =>
              simp only [OnceCell.advance] at h
              cases hv : g.cell.value with
              | none =>
                rw [hv] at h
                refine fin _ (fun h => ?_) h
                simp only [reduceCtorEq, SetCall.checked.injEq, false_or, or_false] at h
                subst h; exact .inl hm
              | some v =>
                rw [hv] at h
                refine fin _ (fun h => ?_) h
                simp at h
            | checked x =>
              simp only [OnceCell.advance] at h
              split at h
              · refine fin _ (fun h => ?_) h
                simp at h
              · refine fin _ (fun h => ?_) h
                simp only [reduceCtorEq, SetCall.holding.injEq, false_or, or_false] at h
                subst h; exact .inr (.inl hm)
            | holding x =>
              simp only [OnceCell.advance] at h
              refine fin _ (fun h => ?_) h
              simp only [reduceCtorEq, SetCall.done.injEq, false_or, and_true] at h
              subst h; exact .inr (.inr (.inl hm))
            | done x ok =>
              simp only [OnceCell.advance] at h
              refine fin _ (fun h => ?_) h
              simp only [reduceCtorEq, SetCall.done.injEq, false_or] at h
              obtain ⟨rfl, rfl⟩ := h; exact .inr (.inr (.inr hm))
  obtain ⟨as₁, a, as₂, h1, h2, h3, h4⟩ := trace_split {} h
  have H := ginv_run ginv_init as₁
  have hsh : ((Global.run {} as₁).step a).1.shows b = true := by rw [← h3]; simp [GEv.shows]
  have hv : (Global.run {} as₁).cell.value = some b := by
    cases a with
    | use => simp only [Global.step, GEv.used.injEq] at h3; exact h3.symm
    | set x => simp [Global.step] at h3
    | advance i =>
      exfalso
      simp only [Global.step] at h3
      split at h3
      · simp at h3
      · rename_i p _
        cases p with
        | start x => simp only [OnceCell.advance] at h3; split at h3 <;> simp at h3
        | checked x => simp only [OnceCell.advance] at h3; split at h3 <;> simp at h3
        | holding x => simp [OnceCell.advance] at h3
        | done x y => simp [OnceCell.advance] at h3
  rcases key as₁ {} ginv_init b (.inr (.inr (.inr ((H.value b).mpr hv)))) with h | h
  · rw [h2]; exact h
  · simp at h

/-- **C39, the first one.** When no `set` has been called yet, a `set` that is not disturbed
succeeds, and one made afterwards fails and changes nothing. -/
theorem C39_first_set (b b' : Nat) :
    ({} : Global).trace [.use, .set b, .advance 0, .advance 0, .advance 0, .use, .set b', .advance 1, .use] =
      [.used none, .called b, .silent, .silent, .returned b true, .used (some b), .called b',
       .returned b' false, .used (some b)] := rfl

/-- Two overlapping `set`s: one wins, one loses, and there is a moment when the loser has
already failed and the backend is not usable yet. -/
example : ({} : Global).trace [.set 1, .set 2, .advance 0, .advance 1, .advance 0, .advance 1, .use, .advance 0, .use] =
    [.called 1, .called 2, .silent, .silent, .silent, .returned 2 false, .used none, .returned 1 true,
     .used (some 1)] := rfl

example : (∀ c ∈ (({} : Global).run [.set 1, .set 2, .advance 0, .advance 1, .advance 0, .advance 1, .advance 0]).calls,
    c.isDone = true) ∧ (({} : Global).run [.set 1, .set 2, .advance 0, .advance 1, .advance 0, .advance 1, .advance 0]).calls ≠ [] := by
  decide

end Rexecutor
