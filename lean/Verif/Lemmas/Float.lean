import Verif.Model.Float

/-! # How far the operations on `f64` are from exact ones -/

namespace Rexecutor

/-- `2^53 + 1` and `2^53 + 3` are ties; `0.1 * 3.0` is the well-known `0.30000000000000004`; a
product can be too small or too large. -/
example : F64.ofInt (2 ^ 53 + 1) = .fin (2 ^ 53 * 2 ^ 1074) ∧ F64.ofInt (2 ^ 53 + 3) = .fin ((2 ^ 53 + 4) * 2 ^ 1074) ∧
    F64.ofInt (-9223372036854775807) = .fin (-2 ^ 63 * 2 ^ 1074) ∧
    F64.mul (.fin (3602879701896397 * 2 ^ 1019)) (F64.ofInt 3) = .fin (5404319552844596 * 2 ^ 1020) ∧
    F64.mul (.fin 1) (.fin (2 ^ 1073)) = .fin 0 ∧ F64.mul (.fin 3) (.fin (2 ^ 1073)) = .fin 2 ∧
    F64.mul (.fin (2 ^ 2097)) (F64.ofInt (-2)) = .inf true ∧ F64.roundToI64 (.fin (-5 * 2 ^ 1073)) = -3 := by decide +kernel

theorem halfEven_close (a : Nat) {b : Nat} (hb : 0 < b) :
    2 * (halfEven a b * b) ≤ 2 * a + b ∧ 2 * a ≤ 2 * (halfEven a b * b) + b := by
  have h := Nat.div_add_mod a b
  have hlt := Nat.mod_lt a hb
  unfold halfEven
  generalize a / b = q at *
  generalize a % b = r at *
  have e1 : (q + 1) * b = b * q + b := by rw [Nat.add_mul, Nat.mul_comm q b]; omega
  have e2 : q * b = b * q := Nat.mul_comm _ _
  split
  · rw [e2]; omega
  · split
    · rw [e1]; omega
    · split
      · rw [e2]; omega
      · rw [e1]; omega

private theorem unit_le (a sh : Nat) : 2 ^ 52 * 2 ^ max sh (a.log2 - 52) ≤ max (2 ^ (sh + 52)) a := by
  rw [← Nat.pow_add]
  by_cases h : a.log2 - 52 ≤ sh
  · rw [Nat.max_eq_left h, Nat.add_comm]
    exact Nat.le_max_left _ _
  · rw [Nat.max_eq_right (by omega)]
    have ha : a ≠ 0 := by intro h0; subst h0; simp at h
    have := Nat.log2_self_le ha
    rw [show 52 + (a.log2 - 52) = a.log2 by omega]
    omega

/-- Rounding errs by at most 2^-53 of the number, or half a unit. -/
theorem round53_close (a sh : Nat) :
    2 ^ 53 * (round53 a sh * 2 ^ sh) ≤ 2 ^ 53 * a + max (2 ^ (sh + 52)) a ∧
    2 ^ 53 * a ≤ 2 ^ 53 * (round53 a sh * 2 ^ sh) + max (2 ^ (sh + 52)) a := by
  have hc := halfEven_close a (Nat.two_pow_pos (max sh (a.log2 - 52)))
  have hu := unit_le a sh
  have e : round53 a sh * 2 ^ sh = halfEven a (2 ^ max sh (a.log2 - 52)) * 2 ^ max sh (a.log2 - 52) := by
    show halfEven a _ * 2 ^ (_ - sh) * 2 ^ sh = _
    rw [Nat.mul_assoc, ← Nat.pow_add, Nat.sub_add_cancel (Nat.le_max_left _ _)]
  rw [e]
  generalize halfEven a (2 ^ max sh (a.log2 - 52)) * 2 ^ max sh (a.log2 - 52) = x at *
  generalize 2 ^ max sh (a.log2 - 52) = u at *
  generalize max (2 ^ (sh + 52)) a = m at *
  constructor <;> omega

theorem round53_zero (sh : Nat) : round53 0 sh = 0 := by
  have h := (halfEven_close 0 (Nat.two_pow_pos (max sh (Nat.log2 0 - 52)))).1
  have : halfEven 0 (2 ^ max sh (Nat.log2 0 - 52)) = 0 := by
    unfold halfEven; simp [Nat.two_pow_pos]
  show halfEven 0 _ * 2 ^ (_ - sh) = 0
  rw [this, Nat.zero_mul]

/-- The product of a whole number `n` and `k / 2^1074`, before it is made an integer. -/
def scaled (n k : Nat) : Nat := round53 (round53 (n * 2 ^ 1074) 0 * k) 1074

theorem scaled_close (n k : Nat) :
    2 ^ 106 * scaled n k ≤ (2 ^ 53 + 1) ^ 2 * (n * k) + 2 ^ 105 ∧
    (2 ^ 53 - 1) ^ 2 * (n * k) ≤ 2 ^ 106 * scaled n k + 2 ^ 105 := by
  have ha : 2 ^ 53 * round53 (n * 2 ^ 1074) 0 ≤ (2 ^ 53 + 1) * (n * 2 ^ 1074) ∧
      (2 ^ 53 - 1) * (n * 2 ^ 1074) ≤ 2 ^ 53 * round53 (n * 2 ^ 1074) 0 := by
    rcases Nat.eq_zero_or_pos n with h0 | h0
    · subst h0; simp [round53_zero]
    · have h := round53_close (n * 2 ^ 1074) 0
      have h1 : 2 ^ (0 + 52) ≤ n * 2 ^ 1074 :=
        Nat.le_trans (Nat.pow_le_pow_right (by decide) (by decide)) (Nat.le_mul_of_pos_left _ h0)
      rw [Nat.max_eq_right h1, Nat.pow_zero, Nat.mul_one] at h
      generalize n * 2 ^ 1074 = x at *
      omega
  have hp := round53_close (round53 (n * 2 ^ 1074) 0 * k) 1074
  generalize hA : round53 (n * 2 ^ 1074) 0 = a at *
  have hs : scaled n k = round53 (a * k) 1074 := by rw [← hA]; rfl
  rw [hs]
  generalize round53 (a * k) 1074 = p at *
  have hk1 := Nat.mul_le_mul_right k ha.1
  have hk2 := Nat.mul_le_mul_right k ha.2
  rw [show 2 ^ (1074 + 52) = 2 ^ 52 * 2 ^ 1074 by rw [← Nat.pow_add]] at hp
  have hU : 0 < 2 ^ 1074 := Nat.two_pow_pos _
  generalize 2 ^ 1074 = U at *
  have e1 : (2 ^ 53 + 1) * (n * U) * k = (2 ^ 53 + 1) * ((n * k) * U) := by
    rw [Nat.mul_assoc, Nat.mul_right_comm n U k]
  have e2 : (2 ^ 53 - 1) * (n * U) * k = (2 ^ 53 - 1) * ((n * k) * U) := by
    rw [Nat.mul_assoc, Nat.mul_right_comm n U k]
  have e3 : 2 ^ 53 * a * k = 2 ^ 53 * (a * k) := Nat.mul_assoc _ _ _
  rw [e1, e3] at hk1
  rw [e2, e3] at hk2
  generalize n * k = x at *
  generalize a * k = y at *
  constructor
  · refine Nat.le_of_mul_le_mul_right ?_ hU
    rw [Nat.add_mul, Nat.mul_assoc, Nat.mul_assoc]
    generalize x * U = z at *
    generalize p * U = q at *
    omega
  · refine Nat.le_of_mul_le_mul_right ?_ hU
    rw [Nat.add_mul, Nat.mul_assoc, Nat.mul_assoc]
    generalize x * U = z at *
    generalize p * U = q at *
    omega

private theorem ofInt_small (n : Nat) (hn : n < 2 ^ 1000) : F64.ofInt n = .fin (round53 (n * 2 ^ 1074) 0) := by
  have hlt : round53 (n * 2 ^ 1074) 0 < 2 ^ 2098 := by
    have h := (round53_close (n * 2 ^ 1074) 0).1
    rw [Nat.pow_zero, Nat.mul_one] at h
    have h1 : n * 2 ^ 1074 < 2 ^ 1000 * 2 ^ 1074 :=
      Nat.mul_lt_mul_of_pos_right hn (Nat.two_pow_pos _)
    have h2 : 2 ^ (0 + 52) ≤ 2 ^ 1000 * 2 ^ 1074 := by
      rw [← Nat.pow_add]
      exact Nat.pow_le_pow_right (by decide) (by decide)
    have h3 : 2 ^ 24 * (2 ^ 1000 * 2 ^ 1074) ≤ 2 ^ 2098 := by
      rw [← Nat.pow_add, ← Nat.pow_add]
      exact Nat.pow_le_pow_right (by decide) (by decide)
    refine Nat.lt_of_lt_of_le ?_ h3
    generalize 2 ^ 1000 * 2 ^ 1074 = V at *
    generalize n * 2 ^ 1074 = y at *
    generalize round53 y 0 = z at *
    omega
  unfold F64.ofInt F64.ofUnits
  rw [show ((n : Int).natAbs) = n from Int.natAbs_natCast n, if_neg (Nat.not_le.mpr hlt)]
  have : decide ((n : Int) < 0) = false := decide_eq_false (by omega)
  rw [this]
  rfl

private theorem large_range (p : Nat) (h : 2 ^ 2098 ≤ p) : 9223372036854775807 ≤ (2 * p + 2 ^ 1074) / 2 ^ 1075 := by
  rw [Nat.le_div_iff_mul_le (Nat.two_pow_pos _)]
  have h1 : 9223372036854775807 * 2 ^ 1075 ≤ 2 ^ 2098 := by
    refine Nat.le_trans (Nat.mul_le_mul_right _ (show 9223372036854775807 ≤ 2 ^ 63 by decide)) ?_
    rw [← Nat.pow_add]
    exact Nat.pow_le_pow_right (by decide) (by decide)
  generalize 2 ^ 2098 = V at *
  generalize 2 ^ 1075 = W at *
  generalize 2 ^ 1074 = U at *
  omega

private theorem round_fin (p : Nat) : (F64.fin p).roundToI64 =
    min 9223372036854775807 (((2 * p + 2 ^ 1074) / 2 ^ 1075 : Nat) : Int) := by
  unfold F64.roundToI64
  simp only [Int.natAbs_natCast]
  rw [if_neg (Int.not_lt.mpr (Int.natCast_nonneg p))]
  generalize (2 * p + 2 ^ 1074) / 2 ^ 1075 = q
  omega

private theorem round_units (p : Nat) : (F64.ofUnits false p).roundToI64 =
    min 9223372036854775807 (((2 * p + 2 ^ 1074) / 2 ^ 1075 : Nat) : Int) := by
  unfold F64.ofUnits
  by_cases h : 2 ^ 2098 ≤ p
  · have hl := large_range p h
    rw [if_pos h]
    clear h
    generalize (2 * p + 2 ^ 1074) / 2 ^ 1075 = q at *
    have : (F64.inf false).roundToI64 = 9223372036854775807 := rfl
    rw [this]
    omega
  · rw [if_neg h]
    exact round_fin p

private theorem mul_fin (k k' : Int) : F64.mul (.fin k) (.fin k') =
    F64.ofUnits (decide (k < 0) != decide (k' < 0)) (round53 (k.natAbs * k'.natAbs) 1074) := by
  unfold F64.mul
  rfl

private theorem mul_nat (a k : Nat) : (F64.fin a).mul (.fin k) = F64.ofUnits false (round53 (a * k) 1074) := by
  have e1 : decide ((a : Int) < 0) = false := decide_eq_false (Int.not_lt.mpr (Int.natCast_nonneg a))
  have e2 : decide ((k : Int) < 0) = false := decide_eq_false (Int.not_lt.mpr (Int.natCast_nonneg k))
  rw [mul_fin, e1, e2, Int.natAbs_natCast, Int.natAbs_natCast, bne_self_eq_false]

/-- The jitter's range for a delay of `n` milliseconds and a ratio of `k / 2^1074`. -/
theorem relative_range (n k : Nat) (hn : n < 2 ^ 1000) :
    ((F64.ofInt n).mul (.fin k)).roundToI64 = min 9223372036854775807 (((2 * scaled n k + 2 ^ 1074) / 2 ^ 1075 : Nat) : Int) := by
  have h1 := ofInt_small n hn
  have h2 := mul_nat (round53 (n * 2 ^ 1074) 0) k
  have h3 := round_units (scaled n k)
  rw [h1, h2, ← h3]
  unfold scaled
  rfl

private theorem negative_units (u : Nat) : (F64.ofUnits true u).roundToI64 ≤ 0 := by
  unfold F64.ofUnits
  split
  · simp [F64.roundToI64]
  · unfold F64.roundToI64
    simp only [if_true]
    by_cases h0 : u = 0
    · subst h0
      have : (2 * (-((0 : Nat) : Int)).natAbs + 2 ^ 1074) / 2 ^ 1075 = 0 := by
        refine Nat.div_eq_of_lt ?_
        have : 2 ^ 1074 < 2 ^ 1075 := Nat.pow_lt_pow_right (by decide) (by decide)
        simpa using this
      rw [this]
      decide
    · rw [if_pos (by omega)]
      generalize (2 * (-(u : Int)).natAbs + 2 ^ 1074) / 2 ^ 1075 = q
      omega

/-- Of a negative delay the range is empty or just zero. -/
theorem relative_negative (x : Int) (k : Nat) (hx : x < 0) : ((F64.ofInt x).mul (.fin k)).roundToI64 ≤ 0 := by
  have e2 : decide ((k : Int) < 0) = false := decide_eq_false (by omega)
  unfold F64.ofInt
  rw [decide_eq_true hx]
  generalize round53 (x.natAbs * 2 ^ 1074) 0 = a
  unfold F64.ofUnits
  split
  · unfold F64.mul
    simp only [e2]
    split
    · simp [F64.roundToI64]
    · simp [F64.roundToI64]
  · unfold F64.mul
    simp only [if_true, e2, Int.natAbs_natCast]
    by_cases h0 : a = 0
    · subst h0
      have h1 : round53 ((-((0 : Nat) : Int)).natAbs * k) 1074 = 0 := by
        rw [show (-((0 : Nat) : Int)).natAbs = 0 from rfl, Nat.zero_mul]
        exact round53_zero _
      rw [h1]
      have h2 : ∀ b, F64.ofUnits b 0 = .fin 0 := by
        intro b
        unfold F64.ofUnits
        rw [if_neg (Nat.not_le.mpr (Nat.two_pow_pos _))]
        cases b <;> rfl
      rw [h2, ← h2 true]
      exact negative_units 0
    · have : decide (-(a : Int) < 0) = true := decide_eq_true (by omega)
      rw [this]
      exact negative_units _

private theorem range_close (n k U p q : Nat) (hU : 0 < U) (hq : q = (2 * p + U) / (2 * U))
    (h1 : 2 ^ 106 * p ≤ (2 ^ 53 + 1) ^ 2 * (n * k) + 2 ^ 105) (h2 : (2 ^ 53 - 1) ^ 2 * (n * k) ≤ 2 ^ 106 * p + 2 ^ 105) :
    2 ^ 52 * (U * q) ≤ (2 ^ 52 + 2) * (n * k) + 2 ^ 51 * (U + 1) ∧
    (2 ^ 52 - 2) * (n * k) ≤ 2 ^ 52 * (U * q) + 2 ^ 51 * (U + 1) := by
  have hd := Nat.div_add_mod (2 * p + U) (2 * U)
  have hm := Nat.mod_lt (2 * p + U) (show 0 < 2 * U by omega)
  rw [← hq, Nat.mul_assoc] at hd
  generalize (2 * p + U) % (2 * U) = r at *
  generalize n * k = x at *
  generalize U * q = z at *
  constructor <;> omega

/-- How far the range of a relative jitter is from the exact product. -/
theorem relative_close (n k : Nat) (hn : n < 2 ^ 1000) :
    ∃ q : Nat, ((F64.ofInt n).mul (.fin k)).roundToI64 = min 9223372036854775807 (q : Int) ∧
      2 ^ 52 * (2 ^ 1074 * q) ≤ (2 ^ 52 + 2) * (n * k) + 2 ^ 51 * (2 ^ 1074 + 1) ∧
      (2 ^ 52 - 2) * (n * k) ≤ 2 ^ 52 * (2 ^ 1074 * q) + 2 ^ 51 * (2 ^ 1074 + 1) := by
  have h := scaled_close n k
  refine ⟨(2 * scaled n k + 2 ^ 1074) / 2 ^ 1075, relative_range n k hn, ?_⟩
  have e : 2 ^ 1075 = 2 * 2 ^ 1074 := by rw [Nat.pow_succ, Nat.mul_comm]
  rw [e]
  exact range_close n k (2 ^ 1074) (scaled n k) _ (Nat.two_pow_pos _) rfl h.1 h.2

end Rexecutor
