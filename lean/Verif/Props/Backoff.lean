import Verif.Lemmas.Float
import Verif.Model.Backoff

/-! # C32, C33, C34: backoff -/

namespace Rexecutor

/-- The maximum configured for a strategy (none for constant). -/
def Strategy.max? : Strategy → Option Delta
  | .constant _ => none
  | .exponential _ max => max
  | .linear _ max => max
  | .polynomial _ _ max => max

/-! ## C32 -/

private theorem tdiv_mul_le {a b : Int} (ha : 0 ≤ a) (hb : 0 < b) : a.tdiv b * b ≤ a := by
  rw [Int.tdiv_eq_ediv_of_nonneg ha]
  exact Int.ediv_mul_le a (by omega)

private theorem cap_le {m x : Int} : cap (some m) x ≤ m := Int.min_le_right _ _

private theorem delay_eq {checks : Bool} {rng : Int} {attempt : Nat} {b : Backoff} {d : Delta} :
    b.delay checks rng attempt = some d ↔ ∃ s x y, b.strategy.delay checks attempt = some s ∧
      addOffset b.offset s = some x ∧ addJitter rng b.jitter x = some y ∧ d = max y b.min := by
  simp only [Backoff.delay, Option.map_eq_some_iff, Option.bind_eq_some_iff]
  constructor
  · rintro ⟨y, ⟨s, h1, x, h2, h3⟩, rfl⟩; exact ⟨s, x, y, h1, h2, h3, rfl⟩
  · rintro ⟨s, x, y, h1, h2, h3, rfl⟩; exact ⟨y, ⟨s, h1, x, h2, h3⟩, rfl⟩

/-- **C32, minimum.** Whatever the configuration, attempt and random draw: a delay that
is returned is not below the configured minimum. -/
theorem C32_min (checks : Bool) (rng : Int) (attempt : Nat) (b : Backoff) (d : Delta)
    (h : b.delay checks rng attempt = some d) : b.min ≤ d := by
  obtain ⟨_, _, x, -, -, -, rfl⟩ := delay_eq.mp h
  exact Int.le_max_right _ _

/-- **C32, maximum.** Without jitter and offset, a delay that is returned exceeds
neither the configured (non-negative) maximum nor, if that is larger, the minimum. -/
theorem C32_max (checks : Bool) (rng : Int) (attempt : Nat) (s : Strategy) (mn mx d : Delta)
    (hm : s.max? = some mx) (h0 : 0 ≤ mx)
    (h : Backoff.delay checks rng attempt { strategy := s, min := mn } = some d) : d ≤ max mx mn := by
  obtain ⟨x, _, _, hx, h1, h2, rfl⟩ := delay_eq.mp h
  simp only [addOffset, Option.some.injEq] at h1
  subst h1
  simp only [addJitter, Option.some.injEq] at h2
  subst h2
  suffices x ≤ mx by simp only [Delta] at *; omega
  cases s with
  | constant delay => simp [Strategy.max?] at hm
  | exponential base m =>
    simp only [Strategy.max?] at hm
    subst hm
    simp only [Strategy.delay, deltaSeconds, Option.map_some] at hx
    split at hx
    · simp only [Option.some.injEq] at hx
      subst hx
      have h1 : cap (some (numSeconds mx)) (powOrMax (numSeconds base) attempt) ≤ numSeconds mx := cap_le
      have h2 : numSeconds mx * sec ≤ mx := tdiv_mul_le h0 (by decide)
      have := Int.mul_le_mul_of_nonneg_right h1 (show (0 : Int) ≤ sec by decide)
      exact Int.le_trans this h2
    · simp at hx
  | linear factor m =>
    simp only [Strategy.max?] at hm
    subst hm
    simp only [Strategy.delay, Option.map_eq_some_iff] at hx
    obtain ⟨y, -, rfl⟩ := hx
    exact cap_le
  | polynomial factor power m =>
    simp only [Strategy.max?] at hm
    subst hm
    simp only [Strategy.delay, Option.map_eq_some_iff, Option.bind_eq_some_iff] at hx
    obtain ⟨_, -, y, -, rfl⟩ := hx
    exact cap_le

example : Backoff.delay true 0 5 { strategy := .linear (10 * sec) (some (40 * sec)) } = some (40 * sec) ∧
    Backoff.delay true 0 0 { strategy := .linear (10 * sec) (some (40 * sec)), min := 7 } = some 7 := by decide

/-- What jitter does: it moves the value by the (clamped) draw. -/
private theorem jitter_moves (checks : Bool) (rng : Int) (attempt : Nat) (b : Backoff) (j : Jitter) (w : Delta)
    (h : Backoff.delay checks rng attempt { b with jitter := some j } = some w) :
    ∃ v x, Backoff.delay checks rng attempt { b with jitter := none } = some v ∧ v = max x b.min ∧
      0 ≤ j.bound x ∧ InRange (x + max (-(j.bound x)) (min (j.bound x) rng) * ms) ∧ w = max (x + max (-(j.bound x)) (min (j.bound x) rng) * ms) b.min := by
  obtain ⟨y, x, z, hy, hx, hz, rfl⟩ := delay_eq.mp h
  refine ⟨max x b.min, x, ?_, rfl, ?_⟩
  · exact delay_eq.mpr ⟨y, x, x, hy, hx, rfl, rfl⟩
  · simp only [addJitter, Jitter.apply] at hz
    split at hz
    · simp at hz
    · rename_i hb
      simp only [deltaAdd] at hz
      split at hz
      · simp only [Option.some.injEq] at hz
        subst hz
        exact ⟨by omega, ‹_›, rfl⟩
      · simp at hz

/-- **C32, absolute jitter.** The same configuration without the jitter also returns a
delay, and the two differ by at most the given (non-negative) jitter. -/
theorem C32_absolute_jitter (checks : Bool) (rng : Int) (attempt : Nat) (b : Backoff) (j w : Delta)
    (hj : 0 ≤ j)
    (h : Backoff.delay checks rng attempt { b with jitter := some (.absolute j) } = some w) :
    ∃ v, Backoff.delay checks rng attempt { b with jitter := none } = some v ∧
      v - j ≤ w ∧ w ≤ v + j := by
  obtain ⟨v, x, h1, rfl, h2, -, rfl⟩ := jitter_moves checks rng attempt b _ w h
  refine ⟨_, h1, ?_⟩
  simp only [Jitter.bound, numMillis] at h2 ⊢
  have hj : j.tdiv ms * ms ≤ j := tdiv_mul_le hj (by decide)
  generalize j.tdiv ms = m at *
  simp only [ms, Delta] at *
  omega

example : Backoff.delay true (-300) 1 { strategy := .constant sec, jitter := some (.absolute (200 * ms)) }
    = some (800 * ms) := by decide

private theorem numMillis_le (x : Delta) : numMillis x * ms ≤ max x 0 := by
  simp only [numMillis]
  by_cases hx : 0 ≤ x
  · have : x.tdiv ms * ms ≤ x := tdiv_mul_le hx (by decide)
    simp only [Delta] at *; omega
  · have : x.tdiv ms ≤ 0 := by
      have h : x = -(-x) := by simp only [Delta] at *; omega
      rw [h, Int.neg_tdiv]
      have := Int.tdiv_nonneg (a := -x) (b := ms) (by simp only [Delta] at *; omega) (by decide)
      omega
    simp only [ms] at *; omega

/-- Nothing is as large as `2^1000`. -/
private theorem small_millis {n : Nat} (h : n ≤ 2 * 9223372036854775807) : n < 2 ^ 1000 :=
  Nat.lt_of_le_of_lt h (Nat.lt_of_lt_of_le (show _ < 2 ^ 64 by decide) (Nat.pow_le_pow_right (by decide) (by decide)))

private theorem jitter_scale (U m n k v c d : Int) (hU : 0 ≤ U) (hk : 0 ≤ k) (hn : n * ms ≤ max v 0)
    (hm : 2 ^ 52 * (U * m) ≤ (2 ^ 52 + 2) * (n * k) + 2 ^ 51 * (U + 1)) (hd : d ≤ m * ms) (hc : c = 2 ^ 51 * (U + 1) * ms) :
    2 ^ 52 * (U * d) ≤ (2 ^ 52 + 2) * (k * max v 0) + c := by
  have h1 : U * d ≤ U * (m * ms) := Int.mul_le_mul_of_nonneg_left hd hU
  have h2 : k * (n * ms) ≤ k * max v 0 := Int.mul_le_mul_of_nonneg_left hn hk
  have e1 : U * (m * ms) = U * m * ms := (Int.mul_assoc _ _ _).symm
  have e2 : k * (n * ms) = n * k * ms := by rw [← Int.mul_assoc, Int.mul_comm k n]
  rw [e1] at h1
  rw [e2] at h2
  subst hc
  generalize U * d = a at *
  generalize U * m = z at *
  generalize n * k = y at *
  generalize k * max v 0 = f at *
  simp only [ms] at *
  omega

/-- **C32, relative jitter.** For a finite ratio that is not negative, `k / 2^1074`: the same
configuration without the jitter also returns a delay `v`, and the two differ by at most
`(1 + 2^-51) v k / 2^1074` (the arithmetic of `f64` is not exact) plus half a millisecond (the
range is rounded to milliseconds; `2^-1074` of a millisecond more if the product is tiny). -/
theorem C32_relative_jitter (checks : Bool) (rng : Int) (attempt : Nat) (b : Backoff) (k : Int) (w : Delta) (hk : 0 ≤ k)
    (h : Backoff.delay checks rng attempt { b with jitter := some (.relative (.fin k)) } = some w) :
    ∃ v, Backoff.delay checks rng attempt { b with jitter := none } = some v ∧
      2 ^ 52 * (2 ^ 1074 * (v - w)) ≤ (2 ^ 52 + 2) * (k * max v 0) + 2 ^ 51 * (2 ^ 1074 + 1) * ms ∧
      2 ^ 52 * (2 ^ 1074 * (w - v)) ≤ (2 ^ 52 + 2) * (k * max v 0) + 2 ^ 51 * (2 ^ 1074 + 1) * ms := by
  obtain ⟨v, x, h1, rfl, h2, h3, rfl⟩ := jitter_moves checks rng attempt b _ w h
  refine ⟨_, h1, ?_⟩
  obtain ⟨k, rfl⟩ := Int.eq_ofNat_of_zero_le hk
  have hx := numMillis_le x
  have hU : (0 : Int) ≤ 2 ^ 1074 := Int.pow_nonneg (by decide)
  simp only [Jitter.bound] at h2 h3 ⊢
  by_cases hneg : numMillis x < 0
  · have := relative_negative (numMillis x) k hneg
    generalize ((F64.ofInt (numMillis x)).mul (F64.fin k)).roundToI64 = m at *
    have hm : m = 0 := by omega
    subst hm
    have hb := Int.mul_nonneg (Int.natCast_nonneg k) (Int.le_max_right (max x b.min) 0)
    have he : ∀ y : Delta, y + max (-0) (min 0 rng) * ms = y := by intro y; simp only [ms, Delta]; omega
    rw [he]
    generalize (2 : Int) ^ 1074 = U at *
    rw [Int.sub_self, Int.mul_zero]
    simp only [ms, Delta] at *
    omega
  · obtain ⟨n, hn⟩ := Int.eq_ofNat_of_zero_le (Int.not_lt.mp hneg)
    rw [hn] at h2 h3 hx ⊢
    have hle : ((F64.ofInt n).mul (F64.fin k)).roundToI64 ≤ 9223372036854775807 := by
      generalize (F64.ofInt n).mul (F64.fin k) = y
      cases y with
      | nan => simp [F64.roundToI64]
      | inf s => cases s <;> simp [F64.roundToI64]
      | fin u => simp only [F64.roundToI64]; omega
    have hsmall : n ≤ 2 * 9223372036854775807 := by
      generalize ((F64.ofInt n).mul (F64.fin k)).roundToI64 = m at *
      simp only [InRange, deltaMax, i64Max, ms, Delta] at *
      omega
    obtain ⟨q, hq, h4, -⟩ := relative_close n k (small_millis hsmall)
    have h5 : (2 : Int) ^ 52 * (2 ^ 1074 * (q : Int)) ≤ (2 ^ 52 + 2) * ((n : Int) * k) + 2 ^ 51 * (2 ^ 1074 + 1) := by
      have := Int.ofNat_le.mpr h4
      simp only [Int.natCast_add, Int.natCast_mul, Int.natCast_pow, Int.cast_ofNat_Int] at this
      exact this
    have h6 : ((F64.ofInt n).mul (F64.fin k)).roundToI64 ≤ q := by rw [hq]; omega
    generalize ((F64.ofInt n).mul (F64.fin k)).roundToI64 = m at *
    clear hq h3 hle hsmall h h1 h4
    have hv : (n : Int) * ms ≤ max (max x b.min) 0 := by simp only [Delta] at *; omega
    generalize (2 : Int) ^ 1074 = U at *
    constructor
    · refine jitter_scale U q n k _ _ _ hU (Int.natCast_nonneg k) hv h5 ?_ rfl
      simp only [ms, Delta] at *
      omega
    · refine jitter_scale U q n k _ _ _ hU (Int.natCast_nonneg k) hv h5 ?_ rfl
      simp only [ms, Delta] at *
      omega

/-- Ten per cent of 30 s is at most 3 s; half of it is drawn here. -/
example : Backoff.delay true 1500 3 { strategy := .constant (30 * sec), jitter := some (.relative .tenth) }
    = some (31500 * ms) := by decide +kernel

/-- **C32, the range of a relative jitter.** For a delay of `n` milliseconds and a ratio of
`k / 2^1074`, there is a number of milliseconds `m` such that the delay is moved by every whole
number of milliseconds from `-m` to `m` and no other (but not below zero). Up to the rounding of
`C32_relative_jitter`, `m` is neither more nor less than the given fraction of the delay. -/
theorem C32_relative_range (checks : Bool) (attempt n k : Nat) (hn : n ≤ 4611686018427387903) (hk : k ≤ 2 ^ 1073) :
    ∃ m : Nat, (∀ rng, Backoff.delay checks rng attempt { strategy := .constant (n * ms), jitter := some (.relative (.fin k)) } =
        some (max (((n : Int) + max (-(m : Int)) (min (m : Int) rng)) * ms) 0)) ∧
      2 ^ 52 * (2 ^ 1074 * m) ≤ (2 ^ 52 + 2) * (n * k) + 2 ^ 51 * (2 ^ 1074 + 1) ∧
      (2 ^ 52 - 2) * (n * k) ≤ 2 ^ 52 * (2 ^ 1074 * m) + 2 ^ 51 * (2 ^ 1074 + 1) := by
  obtain ⟨q, hq, h1, h2⟩ := relative_close n k (small_millis (by omega))
  have hle : q ≤ 4611686018427387903 := by
    have e : 2 ^ 1074 = 2 * 2 ^ 1073 := by rw [Nat.pow_succ, Nat.mul_comm]
    rw [e] at h1
    have hU : 0 < 2 ^ 1073 := Nat.two_pow_pos _
    clear h2 e hq
    generalize 2 ^ 1073 = U at *
    have h3 : n * k ≤ n * U := Nat.mul_le_mul_left n hk
    have h4 : 2 ^ 53 * q ≤ (2 ^ 52 + 2) * n + 2 ^ 53 := by
      refine Nat.le_of_mul_le_mul_right ?_ hU
      rw [Nat.add_mul, Nat.mul_assoc, Nat.mul_assoc, Nat.mul_comm q U]
      rw [Nat.mul_assoc 2 U q] at h1
      generalize n * k = x at *
      generalize n * U = y at *
      generalize U * q = z at *
      omega
    omega
  refine ⟨q, ?_, h1, h2⟩
  intro rng
  clear h1 h2 hk
  have hn' : numMillis (n * ms) = n := by
    simp only [numMillis, ms]
    rw [Int.tdiv_eq_ediv_of_nonneg (by omega)]
    omega
  have hb : (Jitter.relative (.fin k)).bound (n * ms) = q := by
    simp only [Jitter.bound, hn', hq]
    omega
  refine delay_eq.mpr ⟨n * ms, n * ms, ((n : Int) + max (-(q : Int)) (min (q : Int) rng)) * ms, rfl, rfl, ?_, rfl⟩
  simp only [addJitter, Jitter.apply, hb]
  rw [if_neg (by omega)]
  have e : (n : Int) * ms + max (-(q : Int)) (min (q : Int) rng) * ms = ((n : Int) + max (-(q : Int)) (min (q : Int) rng)) * ms := (Int.add_mul _ _ _).symm
  unfold deltaAdd
  simp only [Delta] at *
  rw [e, if_pos]
  simp only [InRange, deltaMax, i64Max, ms, Delta] at *
  omega

/-- Half of 1.001 s is 500.5 ms, which is made 501 ms. -/
example : Backoff.delay true 501 0 { strategy := .constant (1001 * ms), jitter := some (.relative (.fin (2 ^ 1073))) } = some (1502 * ms) ∧
    Backoff.delay true 502 0 { strategy := .constant (1001 * ms), jitter := some (.relative (.fin (2 ^ 1073))) } = some (1502 * ms) ∧
    Backoff.delay true (-9) 0 { strategy := .constant (1001 * ms), jitter := some (.relative (.fin (2 ^ 1073))) } = some (992 * ms) := by
  decide +kernel

/-- **C32, a ratio that is not a number** is a ratio of zero. -/
theorem C32_not_a_number (checks : Bool) (rng : Int) (attempt : Nat) (b : Backoff) (w : Delta)
    (h : Backoff.delay checks rng attempt { b with jitter := some (.relative .nan) } = some w) :
    Backoff.delay checks rng attempt { b with jitter := none } = some w := by
  obtain ⟨v, x, h1, rfl, -, -, rfl⟩ := jitter_moves checks rng attempt b _ w h
  rw [h1]
  have : (Jitter.relative .nan).bound x = 0 := by
    simp only [Jitter.bound]
    generalize F64.ofInt (numMillis x) = y
    cases y <;> rfl
  rw [this]
  simp only [ms, Delta, Option.some.injEq]
  omega

/-! ## C33 -/

/-- `x`, but at most the given limit, if there is one. -/
def limited (max : Option Int) (x : Int) : Int :=
  match max with
  | none => x
  | some m => if m < x then m else x

private theorem cap_limited (max : Option Int) (x : Int) : cap max x = limited max x := by
  cases max with
  | none => rfl
  | some m => simp only [cap, limited]; split <;> omega

private theorem plain_delay {checks : Bool} {rng : Int} {attempt : Nat} {s : Strategy} {mn d : Delta} :
    Backoff.delay checks rng attempt { strategy := s, min := mn } = some d ↔
      ∃ x, s.delay checks attempt = some x ∧ d = max x mn := by
  rw [delay_eq]
  constructor
  · rintro ⟨x, _, _, h1, h2, h3, rfl⟩
    simp only [addOffset, Option.some.injEq] at h2; subst h2
    simp only [addJitter, Option.some.injEq] at h3; subst h3
    exact ⟨x, h1, rfl⟩
  · rintro ⟨x, h1, rfl⟩; exact ⟨x, x, x, h1, rfl, rfl, rfl⟩

/-- **C33, constant.** Always the configured delay (or the minimum if larger). -/
theorem C33_constant (checks : Bool) (rng : Int) (attempt : Nat) (delay mn : Delta) :
    Backoff.delay checks rng attempt { strategy := .constant delay, min := mn } = some (max delay mn) :=
  plain_delay.mpr ⟨delay, rfl, rfl⟩

/-- **C33, linear.** A returned delay is `factor * attempt`, at most `max`, at least the
minimum. -/
theorem C33_linear (checks : Bool) (rng : Int) (attempt : Nat) (factor mn d : Delta) (mx : Option Delta)
    (h : Backoff.delay checks rng attempt { strategy := .linear factor mx, min := mn } = some d) :
    d = max (limited mx (factor * attempt)) mn := by
  obtain ⟨x, hx, rfl⟩ := plain_delay.mp h
  simp only [Strategy.delay, Option.map_eq_some_iff, deltaMul] at hx
  obtain ⟨y, hy, rfl⟩ := hx
  split at hy
  · simp only [Option.some.injEq] at hy; subst hy; rw [cap_limited]
  · simp at hy

/-- **C33, polynomial.** With overflow checks, or as long as `attempt ^ power` fits 32 bits,
a returned delay is `factor * attempt ^ power`, at most `max`, at least the minimum. -/
theorem C33_polynomial (checks : Bool) (rng : Int) (attempt power : Nat) (factor mn d : Delta) (mx : Option Delta)
    (hc : checks = true ∨ (attempt : Int) ^ power < 2 ^ 31)
    (h : Backoff.delay checks rng attempt { strategy := .polynomial factor power mx, min := mn } = some d) :
    d = max (limited mx (factor * (attempt : Int) ^ power)) mn := by
  obtain ⟨x, hx, rfl⟩ := plain_delay.mp h
  simp only [Strategy.delay, Option.bind_eq_some_iff, Option.map_eq_some_iff, deltaMul, powI32] at hx
  obtain ⟨p, hp, y, hy, rfl⟩ := hx
  split at hp
  · simp only [Option.some.injEq] at hp; subst hp
    split at hy
    · simp only [Option.some.injEq] at hy; subst hy; rw [cap_limited]
    · simp at hy
  · rename_i hbig
    rcases hc with rfl | hc
    · simp at hp
    · exact absurd (show (attempt : Int) ^ power ≤ i32Max by simp only [i32Max]; omega) hbig

private theorem pow_or_max_cap {b : Int} {n : Nat} {mx : Option Int} {x : Delta}
    (hb : 0 ≤ b) (hmx : ∀ m, mx = some m → m ≤ i64Max)
    (h : deltaSeconds (cap mx (powOrMax b n)) = some x) : x = limited mx (b ^ n) * sec := by
  have hp : 0 ≤ b ^ n := Int.pow_nonneg hb
  simp only [deltaSeconds] at h
  split at h
  · rename_i hr
    simp only [Option.some.injEq] at h
    subst h
    rw [← cap_limited]
    congr 1
    simp only [powOrMax] at *
    split at hr
    · rename_i hlt; rw [if_pos hlt]
    · rename_i hlt
      rw [if_neg hlt]
      cases mx with
      | none =>
        exfalso
        have hr2 : i64Max * sec ≤ deltaMax := hr.2
        exact absurd hr2 (by decide)
      | some m =>
        have := hmx m rfl
        simp only [cap]
        simp only [i64Max] at *
        omega
  · simp at h

private theorem secs_le_max {m : Int} (h : InRange m) : numSeconds m ≤ i64Max := by
  have h1 : m ≤ 9223372036854775807 * 1000000 := h.2
  show m.tdiv 1000000000 ≤ 9223372036854775807
  by_cases h0 : 0 ≤ m
  · rw [Int.tdiv_eq_ediv_of_nonneg h0]; omega
  · have h2 : m = -(-m) := by omega
    rw [h2, Int.neg_tdiv]
    have := Int.tdiv_nonneg (a := -m) (b := 1000000000) (by omega) (by decide)
    omega

/-- **C33, exponential.** For a non-negative base, a returned delay is, in seconds, the
`attempt`-th power of the base's whole seconds, at most the whole seconds of `max`,
and the result is at least the minimum. -/
theorem C33_exponential (checks : Bool) (rng : Int) (attempt : Nat) (base mn d : Delta) (mx : Option Delta)
    (hb : 0 ≤ base) (hmx : ∀ m, mx = some m → InRange m)
    (h : Backoff.delay checks rng attempt { strategy := .exponential base mx, min := mn } = some d) :
    d = max (limited (mx.map fun m => m.tdiv sec) ((base / sec) ^ attempt) * sec) mn := by
  obtain ⟨x, hx, rfl⟩ := plain_delay.mp h
  simp only [Strategy.delay] at hx
  have hb' : numSeconds base = base / sec := Int.tdiv_eq_ediv_of_nonneg hb
  rw [hb'] at hx
  have := pow_or_max_cap (Int.ediv_nonneg hb (by decide)) (by
    intro m hm
    cases mx with
    | none => simp at hm
    | some m' =>
      simp only [Option.map_some, Option.some.injEq] at hm
      subst hm
      exact secs_le_max (hmx m' rfl)) hx
  rw [this]
  rfl

example : Backoff.delay true 0 4 { strategy := .exponential (2 * sec) (some (30 * sec)) } = some (16 * sec) ∧
    Backoff.delay true 0 5 { strategy := .exponential (2 * sec) (some (30 * sec)) } = some (30 * sec) ∧
    Backoff.delay true 0 3 { strategy := .polynomial (10 * sec) 2 none } = some (90 * sec) ∧
    Backoff.delay true 0 3 { strategy := .linear (10 * sec) none } = some (30 * sec) := by decide

/-- The strategy grows with the attempt: its factor is not negative, resp. its base is
at least a second. -/
def Strategy.Growing : Strategy → Prop
  | .constant _ => True
  | .exponential base max => sec ≤ base ∧ ∀ m, max = some m → InRange m
  | .linear factor _ => 0 ≤ factor
  | .polynomial factor _ _ => 0 ≤ factor

private theorem limited_mono {mx : Option Int} {x y : Int} (h : x ≤ y) : limited mx x ≤ limited mx y := by
  cases mx with
  | none => exact h
  | some m => simp only [limited]; split <;> split <;> omega

private theorem pow_le_pow_right' {b : Int} (hb : 1 ≤ b) {n m : Nat} (h : n ≤ m) : b ^ n ≤ b ^ m := by
  obtain ⟨c, rfl⟩ := Int.eq_ofNat_of_zero_le (show 0 ≤ b by omega)
  have := Nat.pow_le_pow_right (show 0 < c by omega) h
  exact_mod_cast this

/-- **C33, growth.** Without jitter and offset, delays of a growing strategy never decrease
as the attempt grows, as long as they are returned and, in builds without overflow checks,
as long as `attempt ^ power` of a polynomial strategy fits 32 bits. -/
theorem C33_monotone (checks : Bool) (rng : Int) (a a' : Nat) (haa : a ≤ a') (s : Strategy) (hs : s.Growing) (mn d d' : Delta)
    (hc : checks = true ∨ ∀ factor power mx, s = .polynomial factor power mx → (a' : Int) ^ power < 2 ^ 31)
    (h : Backoff.delay checks rng a { strategy := s, min := mn } = some d)
    (h' : Backoff.delay checks rng a' { strategy := s, min := mn } = some d') : d ≤ d' := by
  have hmax : ∀ x y z : Int, x ≤ y → max x z ≤ max y z := by intro x y z h; omega
  cases s with
  | constant delay =>
    rw [C33_constant, Option.some.injEq] at h h'
    rw [← h, ← h']; exact Int.le_refl _
  | exponential base mx =>
    obtain ⟨hb, hm⟩ := hs
    have hb0 : 0 ≤ base := Int.le_trans (by decide) hb
    rw [C33_exponential _ _ _ _ _ _ _ hb0 hm h, C33_exponential _ _ _ _ _ _ _ hb0 hm h']
    refine hmax _ _ _ (Int.mul_le_mul_of_nonneg_right (limited_mono (pow_le_pow_right' ?_ haa)) (by decide))
    simp only [sec, Delta] at *
    omega
  | linear factor mx =>
    rw [C33_linear _ _ _ _ _ _ _ h, C33_linear _ _ _ _ _ _ _ h']
    exact hmax _ _ _ (limited_mono (Int.mul_le_mul_of_nonneg_left (by omega) hs))
  | polynomial factor power mx =>
    have hpow : (a : Int) ^ power ≤ (a' : Int) ^ power := by
      have := Nat.pow_le_pow_left haa power
      exact_mod_cast this
    rw [C33_polynomial _ _ _ _ _ _ _ _ (hc.imp_right fun hc => Int.lt_of_le_of_lt hpow (hc _ _ _ rfl)) h,
      C33_polynomial _ _ _ _ _ _ _ _ (hc.imp_right fun hc => hc _ _ _ rfl) h']
    exact hmax _ _ _ (limited_mono (Int.mul_le_mul_of_nonneg_left hpow hs))

example : Strategy.Growing (.polynomial sec 3 (some (100 * sec))) ∧
    Backoff.delay true 0 4 { strategy := .polynomial sec 3 (some (100 * sec)) } = some (64 * sec) ∧
    Backoff.delay true 0 5 { strategy := .polynomial sec 3 (some (100 * sec)) } = some (100 * sec) := by
  refine ⟨?_, by decide, by decide⟩
  simp only [Strategy.Growing]; decide

private theorem powI32_release (x n : Nat) :
    powI32 false x n = some (((x : Int) ^ n + 2147483648) % 4294967296 - 2147483648) := by
  have hpow : 0 ≤ (x : Int) ^ n := Int.pow_nonneg (by omega)
  unfold powI32 i32Max
  generalize (x : Int) ^ n = q at *
  by_cases h : q ≤ 2147483647
  · rw [if_pos h, Option.some.injEq]; omega
  · rw [if_neg h, if_neg (by decide), Option.some.injEq]
    by_cases h2 : q % 4294967296 ≤ 2147483647
    · rw [if_pos h2]; omega
    · rw [if_neg h2]; omega

/-- **C33, polynomial, without overflow checks.** There the power is what is left of it in 32
bits, read as a signed number. -/
theorem C33_polynomial_release (rng : Int) (attempt power : Nat) (factor mn d : Delta) (mx : Option Delta)
    (h : Backoff.delay false rng attempt { strategy := .polynomial factor power mx, min := mn } = some d) :
    d = max (limited mx (factor * (((attempt : Int) ^ power + 2147483648) % 4294967296 - 2147483648))) mn := by
  obtain ⟨x, hx, rfl⟩ := plain_delay.mp h
  simp only [Strategy.delay, powI32_release, Option.bind_some] at hx
  generalize ((attempt : Int) ^ power + 2147483648) % 4294967296 - 2147483648 = p at *
  rw [Option.map_eq_some_iff] at hx
  obtain ⟨y, hy, rfl⟩ := hx
  unfold deltaMul at hy
  split at hy
  · simp only [Option.some.injEq] at hy; subst hy; rw [cap_limited]
  · simp at hy

/-- The delay can even be negative, and is then made zero by the minimum. -/
example : Backoff.delay false 0 1291 { strategy := .polynomial sec 3 none } = some 0 ∧
    Backoff.delay false 0 1290 { strategy := .polynomial sec 3 none } = some (2146689000 * sec) ∧
    Backoff.delay false 0 65535 { strategy := .polynomial sec 3 none, min := -9 } = some (196607 * sec) := by decide

/-- The bound on `attempt ^ power` is needed in builds without overflow checks. A quadratic backoff of one second
reaches about 68 years at attempt 46340 and drops to zero at the next one. -/
theorem C33_release_wraps :
    Backoff.delay false 0 46340 { strategy := .polynomial sec 2 none } = some (2147395600 * sec) ∧
    Backoff.delay false 0 46341 { strategy := .polynomial sec 2 none } = some 0 := by decide

/-- **C33, offset.** The offset is added to the delay of the strategy: there is one delay `x`
that the same strategy gives without offset, whatever the minimum, and with the offset it
is `x + o`, or the minimum if that is larger. -/
theorem C33_offset (checks : Bool) (rng : Int) (attempt : Nat) (s : Strategy) (o mn d : Delta)
    (h : Backoff.delay checks rng attempt { strategy := s, offset := some o, min := mn } = some d) :
    ∃ x, (∀ m, Backoff.delay checks rng attempt { strategy := s, min := m } = some (max x m)) ∧
      d = max (x + o) mn := by
  obtain ⟨x, y, z, h1, h2, h3, rfl⟩ := delay_eq.mp h
  refine ⟨x, fun m => plain_delay.mpr ⟨x, h1, rfl⟩, ?_⟩
  simp only [addOffset, deltaAdd] at h2
  split at h2
  · cases h2; cases h3; rfl
  · cases h2

example : Backoff.delay true 0 3 { strategy := .linear (10 * sec) none, offset := some (5 * sec), min := sec } =
    some (35 * sec) := by decide

/-! ## C34 -/

/-- **C34 fails.** Non-negative configurations that panic: exponential without maximum;
quadratic in a build with overflow checks; linear with a huge factor; a constant
delay with an offset that leaves the range. -/
theorem C34_violated (rng : Int) :
    Backoff.delay true rng 54 { strategy := .exponential (2 * sec) none } = none ∧
    Backoff.delay false rng 54 { strategy := .exponential (2 * sec) none } = none ∧
    Backoff.delay true rng 46341 { strategy := .polynomial sec 2 none } = none ∧
    Backoff.delay true rng 46341 { strategy := .polynomial sec 2 (some (60 * sec)) } = none ∧
    Backoff.delay true rng 2000 { strategy := .linear deltaMax (some (60 * sec)) } = none ∧
    Backoff.delay true rng 0 { strategy := .constant deltaMax, offset := some 1 } = none := by
  refine ⟨?_, ?_, ?_, ?_, ?_, ?_⟩ <;> rfl

private theorem ite_none {p : Prop} [Decidable p] {x : α} : (if p then some x else none) = none ↔ ¬ p := by
  split <;> simp_all

private theorem deltaMul_none {a n : Int} (h : 0 ≤ a * n) : deltaMul a n = none ↔ i64Max * sec ≤ a * n := by
  unfold deltaMul
  rw [ite_none]
  generalize a * n = p at *
  simp only [i64Max, sec, Delta] at *
  rw [Classical.not_and_iff_not_or_not]
  omega

private theorem deltaSeconds_none {s : Int} : deltaSeconds s = none ↔ ¬ InRange (s * sec) := ite_none

private theorem strategy_exactly_names (attempt : Nat) :
    (∀ checks d, (Strategy.constant d).delay checks attempt ≠ none) ∧
    (∀ checks base max, 0 ≤ base → (∀ m, max = some m → 0 ≤ m ∧ InRange m) →
      ((Strategy.exponential base max).delay checks attempt = none ↔
        max = none ∧ 9223372036854775 < (base / sec) ^ attempt)) ∧
    (∀ checks factor max, 0 ≤ factor →
      ((Strategy.linear factor max).delay checks attempt = none ↔ i64Max * sec ≤ factor * attempt)) ∧
    (∀ factor power max, 0 ≤ factor →
      ((Strategy.polynomial factor power max).delay true attempt = none ↔
        i32Max < (attempt : Int) ^ power ∨ i64Max * sec ≤ factor * (attempt : Int) ^ power)) := by
  refine ⟨fun checks d => by simp [Strategy.delay], ?_, ?_, ?_⟩
  · intro checks base max hb hm
    have hsecs : numSeconds base = base / sec := Int.tdiv_eq_ediv_of_nonneg hb
    have hp0 : 0 ≤ (base / sec) ^ attempt := Int.pow_nonneg (Int.ediv_nonneg hb (by decide))
    have hy : ((base / sec) ^ attempt ≤ i64Max → powOrMax (base / sec) attempt = (base / sec) ^ attempt) ∧
        (i64Max < (base / sec) ^ attempt → powOrMax (base / sec) attempt = i64Max) := by
      unfold powOrMax
      constructor
      · intro h; exact if_pos ⟨Int.le_trans (by decide) hp0, h⟩
      · intro h; exact if_neg (by omega)
    simp only [Strategy.delay, hsecs]
    generalize (base / sec) ^ attempt = q at *
    generalize powOrMax (base / sec) attempt = y at *
    cases max with
    | none =>
      simp only [Option.map_none, cap, true_and]
      rw [deltaSeconds_none]
      clear hm hsecs
      simp only [InRange, deltaMax, i64Max, sec, Delta] at *
      omega
    | some m =>
      obtain ⟨h0, h1⟩ := hm m rfl
      have hms : numSeconds m = m / sec := Int.tdiv_eq_ediv_of_nonneg h0
      simp only [Option.map_some, cap, hms, reduceCtorEq, false_and, iff_false]
      rw [deltaSeconds_none, Classical.not_not]
      clear hm hms hsecs
      have : 0 ≤ y := by simp only [i64Max, Delta] at *; omega
      simp only [InRange, deltaMax, i64Max, sec, Delta] at *
      omega
  · intro checks factor max hf
    simp only [Strategy.delay, Option.map_eq_none_iff]
    exact deltaMul_none (Int.mul_nonneg hf (by omega))
  · intro factor power max hf
    have hp0 : 0 ≤ (attempt : Int) ^ power := Int.pow_nonneg (by omega)
    simp only [Strategy.delay, powI32]
    split
    · rename_i h
      simp only [Option.bind_some, Option.map_eq_none_iff]
      rw [deltaMul_none (Int.mul_nonneg hf hp0)]
      omega
    · rename_i h
      simp only [if_true, Option.bind_none, true_iff]
      omega

/-- **C34, exactly when a strategy panics.** A constant one never; an exponential one, in
every build, exactly if it has no maximum and the power is more than the range of durations
(about 292 million years); a linear one, in every build, exactly if the product leaves the
64 bit range of seconds; a polynomial one, in builds with overflow checks, exactly if the
power does not fit 32 bits or the product leaves that range. A maximum does not prevent the
panic of the last two. -/
theorem C34_strategy_exactly (attempt : Nat) :
    (∀ checks d, (Strategy.constant d).delay checks attempt ≠ none) ∧
    (∀ checks base max, 0 ≤ base → (∀ m, max = some m → 0 ≤ m ∧ InRange m) →
      ((Strategy.exponential base max).delay checks attempt = none ↔
        max = none ∧ 9223372036854775 < (base / sec) ^ attempt)) ∧
    (∀ checks factor max, 0 ≤ factor →
      ((Strategy.linear factor max).delay checks attempt = none ↔ 9223372036854775807 * sec ≤ factor * attempt)) ∧
    (∀ factor power max, 0 ≤ factor →
      ((Strategy.polynomial factor power max).delay true attempt = none ↔
        2147483647 < (attempt : Int) ^ power ∨ 9223372036854775807 * sec ≤ factor * (attempt : Int) ^ power)) :=
  strategy_exactly_names attempt

/-- The first attempts that panic: 54 for two seconds without maximum, 46341 for the square
with overflow checks, 1000 for the largest factor. -/
example : (Strategy.exponential (2 * sec) none).delay false 53 ≠ none ∧ (Strategy.exponential (2 * sec) none).delay false 54 = none ∧
    (Strategy.polynomial sec 2 none).delay true 46340 ≠ none ∧ (Strategy.polynomial sec 2 none).delay true 46341 = none ∧
    (Strategy.linear deltaMax none).delay true 999 ≠ none ∧ (Strategy.linear deltaMax none).delay true 1000 = none := by decide

/-- The duration is more than what a `TimeDelta` can hold, 2^63 - 1 milliseconds either way. -/
def TooLong (d : Delta) : Prop := d < -9223372036854775807000000 ∨ 9223372036854775807000000 < d

/-- **C34, linear and polynomial with any factor.** The linear strategy panics exactly if the product of the factor, which may be negative,
and the attempt is outside the 64 bit range of seconds; otherwise it gives the product, or the maximum if that is smaller. The polynomial one
does so with the power instead of the attempt if that fits 32 bits. If it does not, the strategy panics in builds with overflow checks; in others
it does the same with the number of 32 bits that is congruent to the power. -/
theorem C34_any_factor (checks : Bool) (attempt power : Nat) (factor : Delta) (max : Option Delta) :
    let times (n : Int) : Option Delta :=
      if factor * n < -9223372036854775807000000000 ∨ 9223372036854775807000000000 ≤ factor * n then none
      else some (match max with
        | none => factor * n
        | some m => if m < factor * n then m else factor * n)
    (Strategy.linear factor max).delay checks attempt = times attempt ∧
    ((attempt : Int) ^ power ≤ 2147483647 → (Strategy.polynomial factor power max).delay checks attempt = times ((attempt : Int) ^ power)) ∧
    (2147483647 < (attempt : Int) ^ power → (Strategy.polynomial factor power max).delay true attempt = none) ∧
    (2147483647 < (attempt : Int) ^ power → ∃ n k : Int, (attempt : Int) ^ power = n + k * 4294967296 ∧ -2147483648 ≤ n ∧ n ≤ 2147483647 ∧
      (Strategy.polynomial factor power max).delay false attempt = times n) := by
  intro times
  have ht : ∀ n : Int, (deltaMul factor n).map (cap max) = times n := by
    intro n
    simp only [times, deltaMul]
    generalize factor * n = p
    by_cases h : p < -9223372036854775807000000000 ∨ 9223372036854775807000000000 ≤ p
    · rw [if_pos h, if_neg (by simp only [i64Max, sec, Delta] at *; omega)]; rfl
    · rw [if_neg h, if_pos (by simp only [i64Max, sec, Delta] at *; omega), Option.map_some]
      cases max with
      | none => rfl
      | some m => simp only [cap, Option.some.injEq]; simp only [Delta] at *; split <;> omega
  refine ⟨ht attempt, fun h => ?_, fun h => ?_, fun h => ?_⟩
  · simp only [Strategy.delay, powI32]
    rw [if_pos (by simpa [i32Max] using h)]
    exact ht _
  · simp only [Strategy.delay, powI32]
    rw [if_neg (by simp only [i32Max]; omega)]
    rfl
  · generalize hx : (attempt : Int) ^ power = x at *
    refine ⟨if x % 4294967296 ≤ 2147483647 then x % 4294967296 else x % 4294967296 - 4294967296,
      if x % 4294967296 ≤ 2147483647 then x / 4294967296 else x / 4294967296 + 1, ?_, ?_, ?_, ?_⟩
    · split <;> omega
    · split <;> omega
    · split <;> omega
    · simp only [Strategy.delay, powI32, hx]
      rw [if_neg (by simp only [i32Max]; omega)]
      exact ht _

/-- The most negative factor, just inside and just outside the range; and the cube of 1626, which wraps. -/
example : (Strategy.linear (-9223372036854775807000000) none).delay true 1000 = some (-9223372036854775807000000000) ∧
    (Strategy.linear (-9223372036854775807000000) none).delay true 1001 = none ∧
    (1626 : Int) ^ 3 = 3975080 + 1 * 4294967296 ∧ (Strategy.polynomial sec 3 none).delay false 1626 = some (3975080 * sec) := by decide

/-- **C34, exponential with any base.** With `x` the power of the base's whole seconds, which may be negative:
without a maximum the strategy panics exactly if `x` seconds are too long in either direction and otherwise gives
`x` seconds. With a maximum it panics exactly if `x` is too far below zero but fits 64 bits; it gives the maximum if `x`
is larger or does not fit 64 bits – even if `x` is negative – and `x` seconds otherwise. -/
theorem C34_exponential_any_base (checks : Bool) (attempt : Nat) (base : Delta) :
    let x : Int := (base.tdiv 1000000000) ^ attempt
    ((Strategy.exponential base none).delay checks attempt =
      if 9223372036854775 < x ∨ x < -9223372036854775 then none else some (x * 1000000000)) ∧
    ∀ m, 0 ≤ m → InRange m → (Strategy.exponential base (some m)).delay checks attempt =
      if -9223372036854775808 ≤ x ∧ x < -9223372036854775 then none
      else if x < -9223372036854775808 ∨ m / 1000000000 < x then some (m / 1000000000 * 1000000000)
      else some (x * 1000000000) := by
  intro x
  have hx : (numSeconds base) ^ attempt = x := rfl
  clear_value x
  refine ⟨?_, fun m hm hr => ?_⟩
  · simp only [Strategy.delay, Option.map_none, cap, deltaSeconds, powOrMax, hx, InRange, deltaMax, i64Max, sec, Delta] at *
    repeat' split
    all_goals first | rfl | (simp only [Option.some.injEq, reduceCtorEq]; omega)
  · have hm' : numSeconds m = m / 1000000000 := Int.tdiv_eq_ediv_of_nonneg hm
    simp only [Strategy.delay, Option.map_some, cap, deltaSeconds, powOrMax, hx, hm', InRange, deltaMax, i64Max, sec, Delta] at *
    repeat' split
    all_goals first | rfl | (simp only [Option.some.injEq, reduceCtorEq]; omega)

/-- A negative base: -2 s gives 4 s and -8 s at attempts 2 and 3; with a maximum of a minute it panics at attempt 63 and
gives a minute at attempt 65. -/
example : (Strategy.exponential (-2 * sec) none).delay true 2 = some (4 * sec) ∧ (Strategy.exponential (-2 * sec) none).delay true 3 = some (-8 * sec) ∧
    (Strategy.exponential (-2 * sec) (some (60 * sec))).delay true 63 = none ∧
    (Strategy.exponential (-2 * sec) (some (60 * sec))).delay true 65 = some (60 * sec) := by decide

/-- **C34, exactly when adding offset and jitter panics.** Given the delay `x` of the strategy:
if `x` plus the offset is too long; or, with that sum `y`, if the range of the jitter is
empty or `y` plus the number drawn from it is too long. -/
theorem C34_additions_exactly (checks : Bool) (rng : Int) (attempt : Nat) (b : Backoff) (x : Delta)
    (hx : b.strategy.delay checks attempt = some x) :
    b.delay checks rng attempt = none ↔
      (∃ o, b.offset = some o ∧ TooLong (x + o)) ∨
      (∃ j, b.jitter = some j ∧
        (j.bound (x + b.offset.getD 0) < 0 ∨
          TooLong (x + b.offset.getD 0 + max (-(j.bound (x + b.offset.getD 0))) (min (j.bound (x + b.offset.getD 0)) rng) * 1000000))) := by
  have hr : ∀ d : Delta, InRange d ↔ ¬ TooLong d := by
    intro d
    simp only [InRange, TooLong, deltaMax, i64Max, Delta]
    omega
  have hadd : ∀ a c : Delta, deltaAdd a c = none ↔ TooLong (a + c) := by
    intro a c
    have := hr (a + c)
    by_cases h : TooLong (a + c) <;> simp [deltaAdd, h, this]
  have hjit : ∀ (y : Delta) (j : Jitter), j.apply rng y = none ↔
      j.bound y < 0 ∨ TooLong (y + max (-(j.bound y)) (min (j.bound y) rng) * 1000000) := by
    intro y j
    simp only [Jitter.apply]
    by_cases h : j.bound y < 0
    · simp [h]
    · simp only [h, if_false, false_or]
      exact hadd _ _
  unfold Backoff.delay
  rw [hx, Option.bind_some, Option.map_eq_none_iff]
  cases ho : b.offset with
  | none =>
    simp only [addOffset, Option.bind_some, Option.getD_none, Int.add_zero, reduceCtorEq, false_and, exists_false, false_or]
    cases hj : b.jitter with
    | none => simp [addJitter]
    | some j => simp only [addJitter, hjit, Option.some.injEq, exists_eq_left']
  | some o =>
    simp only [addOffset, Option.some.injEq, exists_eq_left', Option.getD_some]
    cases ha : deltaAdd x o with
    | none =>
      simp only [Option.bind_none, true_iff]
      exact .inl ((hadd x o).mp ha)
    | some y =>
      have hn : ¬ TooLong (x + o) := fun h => by rw [(hadd x o).mpr h] at ha; cases ha
      have hy : y = x + o := by
        simp only [deltaAdd] at ha
        split at ha
        · exact (Option.some.inj ha).symm
        · cases ha
      subst hy
      simp only [Option.bind_some, hn, false_or]
      cases hj : b.jitter with
      | none => simp [addJitter]
      | some j => simp only [addJitter, hjit, Option.some.injEq, exists_eq_left']

example : Backoff.delay true 0 0 { strategy := .constant (-deltaMax), offset := some 1 } = some 0 ∧
    Backoff.delay true 0 0 { strategy := .constant (-deltaMax), offset := some (-1) } = none ∧
    Backoff.delay true 5 0 { strategy := .constant deltaMax, jitter := some (.absolute (3 * ms)) } = none ∧
    Backoff.delay true (-5) 0 { strategy := .constant deltaMax, jitter := some (.absolute (3 * ms)) } = some (deltaMax - 3 * ms) ∧
    Backoff.delay true 0 0 { strategy := .constant sec, jitter := some (.relative (.fin (-2 ^ 1073))) } = none ∧
    Backoff.delay true 5 0 { strategy := .constant sec, jitter := some (.relative .nan) } = some sec ∧
    Backoff.delay true (9 * 10 ^ 18) 0 { strategy := .constant deltaMax, jitter := some (.relative (.inf false)) } = none ∧
    Backoff.delay true 0 0 { strategy := .constant sec, jitter := some (.relative (.inf true)) } = none := by decide +kernel

/-- A hundred years. -/
def century : Delta := 3155760000 * sec

/-- Configurations with durations of at most a century; an exponential strategy has a
maximum; the power of a polynomial strategy fits 32 bits, and it has a maximum or its
delay is at most 70 million years. -/
def Strategy.Moderate (attempt : Nat) : Strategy → Prop
  | .constant d => 0 ≤ d ∧ d ≤ century
  | .exponential base max => 0 ≤ base ∧ ∃ m, max = some m ∧ 0 ≤ m ∧ m ≤ century
  | .linear factor max => 0 ≤ factor ∧ factor ≤ century ∧ ∀ m, max = some m → 0 ≤ m
  | .polynomial factor power max => 0 ≤ factor ∧ factor ≤ century ∧ (attempt : Int) ^ power ≤ 2147483647 ∧
      ((max = none ∧ factor * (attempt : Int) ^ power ≤ 70000000 * (century / 100)) ∨
        ∃ m, max = some m ∧ 0 ≤ m ∧ m ≤ century)

/-- Jitter of at most a century or at most 100 per cent (`2^1074` units of `2^-1074`). -/
def Jitter.Moderate : Jitter → Prop
  | .absolute d => 0 ≤ d ∧ d ≤ century
  | .relative ratio => ∃ k : Int, ratio = .fin k ∧ 0 ≤ k ∧ k ≤ 2 ^ 1074

private theorem moderate_delay {checks : Bool} {attempt : Nat} {s : Strategy} (ha : attempt ≤ 65535)
    (hs : s.Moderate attempt) : ∃ d, s.delay checks attempt = some d ∧ 0 ≤ d ∧ d ≤ 70000000 * (century / 100) := by
  cases s with
  | constant d =>
    refine ⟨d, rfl, hs.1, ?_⟩
    have := hs.2; simp only [century, sec, Delta] at *; omega
  | exponential base max =>
    obtain ⟨hb, m, rfl, h0, h1⟩ := hs
    simp only [Strategy.delay, Option.map_some, cap]
    have hsecs : numSeconds base = base / sec := Int.tdiv_eq_ediv_of_nonneg hb
    have hm : numSeconds m = m / sec := Int.tdiv_eq_ediv_of_nonneg h0
    rw [hsecs, hm]
    have hp : 0 ≤ powOrMax (base / sec) attempt := by
      unfold powOrMax
      have : 0 ≤ (base / sec) ^ attempt := Int.pow_nonneg (Int.ediv_nonneg hb (by decide))
      split
      · exact this
      · decide
    generalize powOrMax (base / sec) attempt = p at *
    have hr : InRange (min p (m / sec) * sec) := by
      simp only [InRange, deltaMax, i64Max, century, sec, Delta] at *; omega
    refine ⟨_, by simp only [deltaSeconds]; rw [if_pos hr], ?_, ?_⟩
    · simp only [sec, Delta] at *; omega
    · simp only [century, sec, Delta] at *; omega
  | linear factor max =>
    obtain ⟨h0, h1, h2⟩ := hs
    have hp0 : 0 ≤ factor * (attempt : Int) := Int.mul_nonneg h0 (by omega)
    have hp1 : factor * (attempt : Int) ≤ century * 65535 := by
      exact Int.mul_le_mul h1 (by omega) (by omega) (by decide)
    have hmul : deltaMul factor attempt = some (factor * attempt) := by
      unfold deltaMul
      refine if_pos ?_
      generalize factor * (attempt : Int) = p at *
      simp only [i64Max, century, sec, Delta] at *
      omega
    refine ⟨cap max (factor * attempt), by simp only [Strategy.delay, hmul, Option.map_some], ?_⟩
    generalize factor * (attempt : Int) = p at *
    cases max with
    | none => simp only [cap, century, sec, Delta] at *; omega
    | some m =>
      have := h2 m rfl
      simp only [cap, century, sec, Delta] at *; omega
  | polynomial factor power max =>
    obtain ⟨h0, h1, h2, h3⟩ := hs
    have hpow0 : 0 ≤ (attempt : Int) ^ power := Int.pow_nonneg (by omega)
    have hpow : powI32 checks attempt power = some ((attempt : Int) ^ power) := by
      unfold powI32; exact if_pos h2
    have hp0 : 0 ≤ factor * (attempt : Int) ^ power := Int.mul_nonneg h0 hpow0
    have hp1 : factor * (attempt : Int) ^ power ≤ century * i32Max :=
      Int.mul_le_mul h1 h2 hpow0 (by decide)
    have hmul : deltaMul factor ((attempt : Int) ^ power) = some (factor * (attempt : Int) ^ power) := by
      unfold deltaMul
      refine if_pos ?_
      generalize factor * (attempt : Int) ^ power = p at *
      simp only [i64Max, i32Max, century, sec, Delta] at *
      omega
    refine ⟨cap max (factor * (attempt : Int) ^ power), by
      simp only [Strategy.delay, hpow, Option.bind_some, hmul, Option.map_some], ?_⟩
    generalize factor * (attempt : Int) ^ power = p at *
    rcases h3 with ⟨rfl, h3⟩ | ⟨m, rfl, h4, h5⟩
    · exact ⟨hp0, h3⟩
    · simp only [cap, century, sec, Delta] at *; omega

private theorem whole_ratio (n k U q : Nat) (hU : 0 < U) (hk : k ≤ U)
    (h : 2 ^ 52 * (U * q) ≤ (2 ^ 52 + 2) * (n * k) + 2 ^ 51 * (U + 1)) : 2 ^ 52 * q ≤ (2 ^ 52 + 2) * n + 2 ^ 52 := by
  have h1 : n * k ≤ n * U := Nat.mul_le_mul_left n hk
  refine Nat.le_of_mul_le_mul_right ?_ hU
  rw [Nat.add_mul, Nat.mul_assoc, Nat.mul_assoc, Nat.mul_comm q U]
  generalize n * k = x at *
  generalize n * U = y at *
  generalize U * q = z at *
  omega

/-- **C34, for moderate configurations.** If all configured durations are at most a
century, an exponential strategy has a maximum and the power of a polynomial one fits
32 bits, then a delay is returned for every attempt and every draw. -/
theorem C34_no_panic_partial (checks : Bool) (rng : Int) (attempt : Nat) (ha : attempt ≤ 65535) (b : Backoff)
    (hs : b.strategy.Moderate attempt) (ho : ∀ o, b.offset = some o → 0 ≤ o ∧ o ≤ century)
    (hj : ∀ j, b.jitter = some j → j.Moderate) :
    ∃ d, b.delay checks rng attempt = some d := by
  obtain ⟨s, h1, h2, h3⟩ := moderate_delay (checks := checks) ha hs
  have hx : ∃ x, addOffset b.offset s = some x ∧ 0 ≤ x ∧ x ≤ 70000001 * (century / 100) + century := by
    cases hoff : b.offset with
    | none =>
      refine ⟨s, rfl, h2, ?_⟩
      simp only [century, sec, Delta] at *; omega
    | some o =>
      obtain ⟨h4, h5⟩ := ho o hoff
      refine ⟨s + o, ?_, ?_, ?_⟩
      · simp only [addOffset, deltaAdd]
        refine if_pos ?_
        simp only [InRange, deltaMax, i64Max, century, sec, Delta] at *; omega
      · simp only [Delta] at *; omega
      · simp only [century, sec, Delta] at *; omega
  obtain ⟨x, h4, h5, h6⟩ := hx
  have hy : ∃ y, addJitter rng b.jitter x = some y := by
    cases hjit : b.jitter with
    | none => exact ⟨x, rfl⟩
    | some j =>
      have hm := hj j hjit
      have hbound : 0 ≤ j.bound x ∧ j.bound x * ms ≤ x + century + ms := by
        cases j with
        | absolute d =>
          obtain ⟨hd0, hd1⟩ := hm
          simp only [Jitter.bound, numMillis]
          rw [Int.tdiv_eq_ediv_of_nonneg hd0]
          simp only [century, sec, ms, Delta] at *; omega
        | relative ratio =>
          obtain ⟨k, rfl, hk0, hk1⟩ := hm
          obtain ⟨k, rfl⟩ := Int.eq_ofNat_of_zero_le hk0
          have hk : k ≤ 2 ^ 1074 := by
            refine Int.ofNat_le.mp ?_
            rw [Int.natCast_pow]
            exact hk1
          simp only [Jitter.bound, numMillis]
          rw [Int.tdiv_eq_ediv_of_nonneg h5]
          obtain ⟨n, hn⟩ := Int.eq_ofNat_of_zero_le (Int.ediv_nonneg h5 (show (0 : Int) ≤ ms by decide))
          rw [hn]
          have hsmall : n ≤ 2 * 9223372036854775807 := by
            clear hk hk1
            simp only [century, sec, ms, Delta] at *; omega
          obtain ⟨q, hq, h7, -⟩ := relative_close n k (small_millis hsmall)
          have h8 := whole_ratio n k (2 ^ 1074) q (Nat.two_pow_pos _) hk h7
          clear hk hk1 h7
          have h9 : ((F64.ofInt n).mul (F64.fin k)).roundToI64 ≤ q := by rw [hq]; omega
          have h10 : 0 ≤ ((F64.ofInt n).mul (F64.fin k)).roundToI64 := by rw [hq]; omega
          generalize ((F64.ofInt n).mul (F64.fin k)).roundToI64 = m at *
          clear hq
          refine ⟨h10, ?_⟩
          simp only [century, sec, ms, Delta] at *; omega
      refine ⟨x + max (-(j.bound x)) (min (j.bound x) rng) * ms, ?_⟩
      generalize hbb : j.bound x = m at *
      simp only [addJitter, Jitter.apply, hbb]
      rw [if_neg (by omega)]
      unfold deltaAdd
      refine if_pos ?_
      simp only [InRange, deltaMax, i64Max, century, sec, ms, Delta] at *; omega
  obtain ⟨y, h7⟩ := hy
  exact ⟨_, delay_eq.mpr ⟨s, x, y, h1, h4, h7, rfl⟩⟩

private theorem tenth_range : F64.tenth = .fin ((3602879701896397 * 2 ^ 1019 : Nat) : Int) := by
  unfold F64.tenth
  rw [Int.natCast_mul, Int.natCast_pow]
  rfl

/-- Ten per cent of a number of seconds that is not too large is exact. -/
private theorem tenth_exact (s : Nat) (hs : s ≤ 604800) :
    ((F64.ofInt (1000 * s : Nat)).mul .tenth).roundToI64 = 100 * s := by
  obtain ⟨q, hq, h1, h2⟩ := relative_close (1000 * s) (3602879701896397 * 2 ^ 1019) (small_millis (by omega))
  rw [tenth_range, hq]
  have e : 2 ^ 1074 = 2 ^ 55 * 2 ^ 1019 := by rw [← Nat.pow_add]
  rw [e] at h1 h2
  have hU : 1 ≤ 2 ^ 1019 := Nat.two_pow_pos _
  clear hq e
  generalize 2 ^ 1019 = U at *
  have e1 : 2 ^ 55 * U * q = 2 ^ 55 * (U * q) := Nat.mul_assoc _ _ _
  have e2 : 1000 * s * (3602879701896397 * U) = 3602879701896397000 * (U * s) := by
    rw [Nat.mul_comm U s, Nat.mul_mul_mul_comm]
  rw [e1, e2] at h1 h2
  have hs' : U * s ≤ 604800 * U := by rw [Nat.mul_comm 604800]; exact Nat.mul_le_mul_left U hs
  have hq : q = 100 * s := by
    rcases Nat.lt_trichotomy q (100 * s) with h | h | h
    · have := Nat.mul_le_mul_left U (show q + 1 ≤ 100 * s by omega)
      rw [Nat.mul_add, Nat.mul_one, Nat.mul_left_comm] at this
      generalize U * q = Y at *
      generalize U * s = X at *
      omega
    · exact h
    · have := Nat.mul_le_mul_left U (show 100 * s + 1 ≤ q by omega)
      rw [Nat.mul_add, Nat.mul_one, Nat.mul_left_comm] at this
      generalize U * q = Y at *
      generalize U * s = X at *
      omega
  subst hq
  omega

/-- **C33, the default.** The default backoff of executors is four seconds to the power of the
attempt, at most seven days, up to ten per cent more or less. -/
theorem C33_default (checks : Bool) (rng : Int) (attempt : Nat) (d : Delta)
    (h : defaultBackoff.delay checks rng attempt = some d) :
    let v : Int := min (4 ^ attempt) (7 * 86400) * sec
    10 * (v - d) ≤ v ∧ 10 * (d - v) ≤ v := by
  have h' : Backoff.delay checks rng attempt { ({ strategy := .exponential (4 * sec) (some (7 * 86400 * sec)) } : Backoff) with
      jitter := some (.relative .tenth) } = some d := h
  obtain ⟨v, x, hv, hx, h1, -, hd⟩ := jitter_moves checks rng attempt _ _ d h'
  have hv' := C33_exponential checks rng attempt (4 * sec) 0 v (some (7 * 86400 * sec)) (by decide)
    (by intro m hm; cases hm; decide) hv
  have hp : (0 : Int) < 4 ^ attempt := Int.pow_pos (by decide)
  have e1 : (4 * sec / sec : Int) = 4 := by decide
  have e2 : ((7 * 86400 * sec : Int).tdiv sec) = 604800 := by decide
  simp only [limited, Option.map_some, e1, e2] at hv'
  generalize (4 : Int) ^ attempt = p at *
  have hvs : v = min p (7 * 86400) * sec := by
    rw [hv']
    simp only [sec, Delta]
    by_cases hpp : 604800 < p
    · rw [if_pos hpp, Int.min_eq_right (by omega)]; decide
    · rw [if_neg hpp, Int.min_eq_left (by omega), Int.max_eq_left (by omega)]
  obtain ⟨s, hs⟩ := Int.eq_ofNat_of_zero_le (show 0 ≤ min p (7 * 86400) by omega)
  rw [hs] at hvs ⊢
  have hsle : s ≤ 604800 := by omega
  have hspos : 1 ≤ s := by omega
  have hxs : x = s * sec := by
    simp only [sec, Delta] at *
    omega
  have hn : numMillis x = (1000 * s : Nat) := by
    rw [hxs]
    simp only [numMillis, sec, ms]
    rw [Int.tdiv_eq_ediv_of_nonneg (by omega)]
    omega
  have hb : (Jitter.relative .tenth).bound x = 100 * s := by
    simp only [Jitter.bound, hn]
    exact tenth_exact s hsle
  rw [hb] at hd
  clear hv hv' h h' h1 hb hn
  simp only [sec, ms, Delta] at *
  omega

example : defaultBackoff.delay true (-20) 3 = some (64 * sec - 20 * ms) ∧
    defaultBackoff.delay true 0 40 = some (7 * 86400 * sec) ∧
    defaultBackoff.delay true 70000000 40 = some (7 * 86400 * sec + 60480 * sec) := by decide +kernel

/-- The default backoff of executors (4 seconds exponential, at most 7 days, 10 per
cent jitter) returns a delay for every attempt and draw: at least 0, at most 7.7 days. -/
theorem C34_default_backoff (checks : Bool) (rng : Int) (attempt : Nat) (ha : attempt ≤ 65535) :
    ∃ d, defaultBackoff.delay checks rng attempt = some d ∧ 0 ≤ d ∧ d ≤ 7 * 86400 * sec + 60480 * sec := by
  obtain ⟨d, hd⟩ := C34_no_panic_partial checks rng attempt ha defaultBackoff
    ⟨by decide, _, rfl, by decide, by decide⟩ (by intro o h; cases h)
    (by
      intro j h
      cases h
      exact ⟨_, rfl, by decide +kernel, by decide +kernel⟩)
  refine ⟨d, hd, C32_min _ _ _ _ _ hd, ?_⟩
  have := (C33_default checks rng attempt d hd).2
  generalize (4 : Int) ^ attempt = p at *
  simp only [sec, ms, Delta] at *
  omega

/-! ## C77 -/

/-- The arguments of the calls of one kind. -/
def BackoffCall.max? : BackoffCall → Option Delta
  | .withMax d => some d
  | _ => none
def BackoffCall.jitter? : BackoffCall → Option Jitter
  | .withJitter j => some j
  | _ => none
def BackoffCall.min? : BackoffCall → Option Delta
  | .withMin d => some d
  | _ => none
def BackoffCall.offset? : BackoffCall → Option Delta
  | .withOffset d => some d
  | _ => none

/-- The strategy with the numbers given to the constructor and the given maximum, if it
takes one. -/
def BackoffCtor.withMaximum (mx : Option Delta) : BackoffCtor → Strategy
  | .constant delay => .constant delay
  | .exponential base => .exponential base mx
  | .linear factor => .linear factor mx
  | .polynomial factor power => .polynomial factor power mx

private theorem build_fields (c : BackoffCtor) (calls : List BackoffCall) (mx : Option Delta) (j : Option Jitter)
    (o : Option Delta) (mn : Delta) :
    calls.foldl Backoff.apply { strategy := c.withMaximum mx, jitter := j, offset := o, min := mn }
      = { strategy := c.withMaximum ((calls.filterMap BackoffCall.max?).getLast?.or mx)
          jitter := (calls.filterMap BackoffCall.jitter?).getLast?.or j
          offset := (calls.filterMap BackoffCall.offset?).getLast?.or o
          min := (calls.filterMap BackoffCall.min?).getLast?.getD mn } := by
  induction calls generalizing mx j o mn with
  | nil => simp
  | cons x calls ih =>
    rw [List.foldl_cons]
    have hor : ∀ {α : Type} (a : α) (l : List α) (o : Option α),
        (a :: l).getLast?.or o = l.getLast?.or (some a) := by
      intro α a l o
      rw [List.getLast?_cons]; cases l.getLast? <;> rfl
    have hget : ∀ {α : Type} (a : α) (l : List α) (d : α), (a :: l).getLast?.getD d = l.getLast?.getD a := by
      intro α a l d
      rw [List.getLast?_cons]; rfl
    cases x with
    | withMax d =>
      have : Backoff.apply { strategy := c.withMaximum mx, jitter := j, offset := o, min := mn } (.withMax d)
          = { strategy := c.withMaximum (some d), jitter := j, offset := o, min := mn } := by
        cases c <;> rfl
      rw [this, ih]
      simp only [List.filterMap_cons, BackoffCall.max?, BackoffCall.jitter?, BackoffCall.min?, BackoffCall.offset?, hor]
    | withJitter d =>
      simp only [Backoff.apply]
      rw [ih]
      simp only [List.filterMap_cons, BackoffCall.max?, BackoffCall.jitter?, BackoffCall.min?, BackoffCall.offset?, hor]
    | withMin d =>
      simp only [Backoff.apply]
      rw [ih]
      simp only [List.filterMap_cons, BackoffCall.max?, BackoffCall.jitter?, BackoffCall.min?, BackoffCall.offset?, hget]
    | withOffset d =>
      simp only [Backoff.apply]
      rw [ih]
      simp only [List.filterMap_cons, BackoffCall.max?, BackoffCall.jitter?, BackoffCall.min?, BackoffCall.offset?, hor]

/-- **C77.** After any chain of calls on any constructor, in any order: the strategy has the
numbers given to the constructor, and for maximum, jitter, offset and minimum the argument
of the last call setting it; without such a call there is no maximum, no jitter and no
offset, and the minimum is zero. -/
theorem C77_builder (c : BackoffCtor) (calls : List BackoffCall) :
    c.build calls =
      { strategy := c.withMaximum (calls.filterMap BackoffCall.max?).getLast?
        jitter := (calls.filterMap BackoffCall.jitter?).getLast?
        offset := (calls.filterMap BackoffCall.offset?).getLast?
        min := (calls.filterMap BackoffCall.min?).getLast?.getD 0 } := by
  have h := build_fields c calls none none none 0
  simp only [Option.or_none] at h
  rw [← h]
  cases c <;> rfl

/-- **C77, order.** Calls of different kinds can be swapped. -/
theorem C77_order (c : BackoffCtor) (calls calls' : List BackoffCall)
    (h1 : calls.filterMap BackoffCall.max? = calls'.filterMap BackoffCall.max?)
    (h2 : calls.filterMap BackoffCall.jitter? = calls'.filterMap BackoffCall.jitter?)
    (h3 : calls.filterMap BackoffCall.offset? = calls'.filterMap BackoffCall.offset?)
    (h4 : calls.filterMap BackoffCall.min? = calls'.filterMap BackoffCall.min?) :
    c.build calls = c.build calls' := by
  rw [C77_builder, C77_builder, h1, h2, h3, h4]

/-- **C77, in delays.** The chain `with_min`, `with_offset`, `with_max` on a linear strategy:
`factor * attempt`, at most the maximum, plus the offset, at least the minimum. The
maximum does not bound the offset. -/
theorem C77_linear (checks : Bool) (rng : Int) (attempt : Nat) (factor mx o mn d : Delta)
    (h : ((BackoffCtor.linear factor).build [.withMin mn, .withOffset o, .withMax mx]).delay checks rng attempt = some d) :
    d = max (min (factor * attempt) mx + o) mn := by
  rw [C77_builder] at h
  obtain ⟨s, x, y, hs, hx, hy, rfl⟩ := delay_eq.mp h
  have hs : (deltaMul factor attempt).map (cap (some mx)) = some s := hs
  have hx : deltaAdd s o = some x := hx
  have hy : some x = some y := hy
  cases hy
  simp only [deltaMul, deltaAdd, Option.map_eq_some_iff] at hs hx
  obtain ⟨z, hz, rfl⟩ := hs
  split at hz
  · cases hz
    split at hx
    · cases hx
      rfl
    · cases hx
  · cases hz

example : ((BackoffCtor.linear (10 * sec)).build [.withMax (90 * sec), .withJitter (.absolute sec), .withMax (40 * sec)]).delay
      true 5000 7 = some (41 * sec) ∧
    ((BackoffCtor.linear (10 * sec)).build [.withMin sec, .withOffset (3 * sec), .withMax (40 * sec)]).delay
      true 0 7 = some (43 * sec) := by decide

end Rexecutor
