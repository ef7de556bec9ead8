/-!
# `f64`, as far as the backoff uses it

IEEE 754 double precision: a finite number is an integer multiple of the least positive
number, 2^-1074, with at most 53 significant bits. The backoff converts an integer,
multiplies, rounds to an integer and converts back (rexecutor/src/backoff.rs:207).

Simplification: 0 and -0 are not distinguished; none of these operations tells them apart in
its final result. Assumption, from the documentation of Rust: conversion and product are
rounded to the nearest number, ties to the even one; `as i64` saturates and turns NaN into 0.
-/

namespace Rexecutor

/-- `f64`. `fin k` is the number `k / 2^1074`. -/
inductive F64 where
  | nan
  | inf (negative : Bool)
  | fin (units : Int)
  deriving DecidableEq, Repr

/-- `a / b` as an integer, ties to the even one. -/
def halfEven (a b : Nat) : Nat :=
  if 2 * (a % b) < b then a / b
  else if b < 2 * (a % b) then a / b + 1
  else if a / b % 2 = 0 then a / b else a / b + 1

/-- `a / 2^sh` in units, to 53 significant bits. -/
def round53 (a sh : Nat) : Nat :=
  let u := max sh (a.log2 - 52)
  halfEven a (2 ^ u) * 2 ^ (u - sh)

/-- With a sign, and infinite from `2^1024` on. -/
def F64.ofUnits (negative : Bool) (units : Nat) : F64 :=
  if 2 ^ 2098 ≤ units then .inf negative else .fin (if negative then -units else units)

/-- `x as f64` for an `i64`, backoff.rs:207. -/
def F64.ofInt (x : Int) : F64 := F64.ofUnits (decide (x < 0)) (round53 (x.natAbs * 2 ^ 1074) 0)

/-- `a * b`, backoff.rs:207. -/
def F64.mul : F64 → F64 → F64
  | .nan, _ => .nan
  | _, .nan => .nan
  | .inf s, .inf s' => .inf (s != s')
  | .inf s, .fin k => if k = 0 then .nan else .inf (s != decide (k < 0))
  | .fin k, .inf s => if k = 0 then .nan else .inf (decide (k < 0) != s)
  | .fin k, .fin k' => F64.ofUnits (decide (k < 0) != decide (k' < 0)) (round53 (k.natAbs * k'.natAbs) 1074)

/-- `x.round() as i64`, backoff.rs:207: halves away from zero. -/
def F64.roundToI64 : F64 → Int
  | .nan => 0
  | .inf negative => if negative then -9223372036854775808 else 9223372036854775807
  | .fin k =>
    let r : Int := ((2 * k.natAbs + 2 ^ 1074) / 2 ^ 1075 : Nat)
    max (-9223372036854775808) (min 9223372036854775807 (if k < 0 then -r else r))

end Rexecutor
