import Verif.Model.Types
import Verif.Model.Float

/-!
# Backoff strategies (rexecutor/src/backoff.rs)

Durations are nanoseconds. A result of `none` is a panic. Assumptions on the
libraries, from their documentation: `TimeDelta` holds at most `i64::MAX`
milliseconds either way; `TimeDelta * i32` panics iff the whole seconds of the
product do not fit strictly between `i64::MIN` and `i64::MAX`; `TimeDelta +
TimeDelta` panics iff the sum is outside the range; `num_seconds` and
`num_milliseconds` round towards zero.

`checks` says whether the build has integer overflow checks (debug) or wraps
(release).
-/

namespace Rexecutor

/-- `i64::MAX` -/
def i64Max : Int := 9223372036854775807
/-- `i32::MAX` -/
def i32Max : Int := 2147483647
/-- `TimeDelta::MAX` in nanoseconds; `TimeDelta::MIN` is its negative. -/
def deltaMax : Int := i64Max * 1000000

/-- The duration is a possible value of `TimeDelta`. -/
def InRange (d : Delta) : Prop := -deltaMax ≤ d ∧ d ≤ deltaMax

instance (d : Delta) : Decidable (InRange d) := by unfold InRange; infer_instance

/-- `TimeDelta::num_seconds`. -/
def numSeconds (d : Delta) : Int := d.tdiv sec
/-- `TimeDelta::num_milliseconds`. -/
def numMillis (d : Delta) : Int := d.tdiv ms

/-- `TimeDelta::seconds`. -/
def deltaSeconds (s : Int) : Option Delta :=
  if InRange (s * sec) then some (s * sec) else none

/-- `TimeDelta + TimeDelta`. -/
def deltaAdd (a b : Delta) : Option Delta :=
  if InRange (a + b) then some (a + b) else none

/-- `TimeDelta * i32`. -/
def deltaMul (a : Delta) (n : Int) : Option Delta :=
  if -i64Max ≤ (a * n) / sec ∧ (a * n) / sec < i64Max then some (a * n) else none

/-- `i64::checked_pow(n).unwrap_or(i64::MAX)`, backoff.rs:105-109. -/
def powOrMax (x : Int) (n : Nat) : Int :=
  if -i64Max - 1 ≤ x ^ n ∧ x ^ n ≤ i64Max then x ^ n else i64Max

/-- `i32::pow`: with overflow checks it panics, otherwise it wraps. -/
def powI32 (checks : Bool) (x : Nat) (n : Nat) : Option Int :=
  if (x : Int) ^ n ≤ i32Max then some ((x : Int) ^ n)
  else if checks then none
  else
    let r := (x : Int) ^ n % 4294967296
    some (if r ≤ i32Max then r else r - 4294967296)

/-- `if let Some(max) = self.max { x = x.min(max) }`. -/
def cap (max : Option Int) (x : Int) : Int :=
  match max with
  | none => x
  | some m => min x m

/-- The four strategies, backoff.rs:64-66, 98-101, 139-142, 178-182. -/
inductive Strategy where
  | constant (delay : Delta)
  | exponential (base : Delta) (max : Option Delta)
  | linear (factor : Delta) (max : Option Delta)
  | polynomial (factor : Delta) (power : Nat) (max : Option Delta)
  deriving DecidableEq, Repr

/-- `Strategy::backoff` of the four strategies, backoff.rs:68-72, 103-115, 144-152,
184-192. -/
def Strategy.delay (checks : Bool) (attempt : Nat) : Strategy → Option Delta
  | .constant delay => some delay
  | .exponential base max =>
    deltaSeconds (cap (max.map numSeconds) (powOrMax (numSeconds base) attempt))
  | .linear factor max => (deltaMul factor attempt).map (cap max)
  | .polynomial factor power max =>
    (powI32 checks attempt power).bind fun p => (deltaMul factor p).map (cap max)

/-- `Jitter`, backoff.rs:196-202. -/
inductive Jitter where
  | absolute (d : Delta)
  | relative (ratio : F64)
  deriving DecidableEq, Repr

/-- The bound of the random range in milliseconds, backoff.rs:205-208. -/
def Jitter.bound (value : Delta) : Jitter → Int
  | .absolute d => numMillis d
  | .relative ratio => ((F64.ofInt (numMillis value)).mul ratio).roundToI64

/-- `Jitter::apply_jitter`, backoff.rs:204-212. `rng` stands for the random number
generator: the number drawn from `-m..=m` is `rng` clamped to that range, so every
draw is possible. An empty range panics; so does `-m` for `i64::MIN`, or, in builds without
overflow checks, `TimeDelta::milliseconds(i64::MIN)`. -/
def Jitter.apply (rng : Int) (value : Delta) (j : Jitter) : Option Delta :=
  let m := j.bound value
  if m < 0 then none
  else deltaAdd value (max (-m) (min m rng) * ms)

/-- `BackoffStrategy`, backoff.rs:246-251. -/
structure Backoff where
  strategy : Strategy
  jitter : Option Jitter := none
  offset : Option Delta := none
  min : Delta := 0
  deriving DecidableEq, Repr

/-- The constructors `constant`, `exponential`, `linear` and `polynomial`,
backoff.rs:270-272, 297-299, 328-330, 361-367. -/
inductive BackoffCtor where
  | constant (delay : Delta)
  | exponential (base : Delta)
  | linear (factor : Delta)
  | polynomial (factor : Delta) (power : Nat)
  deriving DecidableEq, Repr

/-- The strategy the constructors pass to `new`, backoff.rs:270-272, 297-299, 328-330,
361-367. -/
def BackoffCtor.strategy : BackoffCtor → Strategy
  | .constant delay => .constant delay
  | .exponential base => .exponential base none
  | .linear factor => .linear factor none
  | .polynomial factor power => .polynomial factor power none

/-- `BackoffStrategy::new`, backoff.rs:390-397. -/
def Backoff.new (s : Strategy) : Backoff where
  strategy := s
  jitter := none
  offset := none
  min := 0

/-- One call on a backoff strategy. -/
inductive BackoffCall where
  | withMax (d : Delta)
  | withJitter (j : Jitter)
  | withMin (d : Delta)
  | withOffset (d : Delta)
  deriving DecidableEq, Repr

/-- `self.strategy.max = Some(max_delay)`, backoff.rs:302-305, 333-336, 370-373. Constant
strategies have no `with_max`; the call is ignored here. -/
def Strategy.setMax (d : Delta) : Strategy → Strategy
  | .constant delay => .constant delay
  | .exponential base _ => .exponential base (some d)
  | .linear factor _ => .linear factor (some d)
  | .polynomial factor power _ => .polynomial factor power (some d)

/-- `with_max` (backoff.rs:302-305, 333-336, 370-373), `with_jitter` (400-403),
`with_min` (406-409), `with_offset` (413-416). -/
def Backoff.apply (b : Backoff) : BackoffCall → Backoff
  | .withMax d => { b with strategy := b.strategy.setMax d }
  | .withJitter j => { b with jitter := some j }
  | .withMin d => { b with min := d }
  | .withOffset d => { b with offset := some d }

/-- A constructor followed by a chain of calls. -/
def BackoffCtor.build (c : BackoffCtor) (calls : List BackoffCall) : Backoff :=
  calls.foldl Backoff.apply (Backoff.new c.strategy)

/-- `if let Some(additional_offset) = ...`, backoff.rs:426-428. -/
def addOffset (offset : Option Delta) (d : Delta) : Option Delta :=
  match offset with
  | none => some d
  | some o => deltaAdd d o

/-- `if let Some(jitter) = ...`, backoff.rs:430-432. -/
def addJitter (rng : Int) (jitter : Option Jitter) (d : Delta) : Option Delta :=
  match jitter with
  | none => some d
  | some j => j.apply rng d

/-- `BackoffStrategy::backoff`, backoff.rs:419-436. -/
def Backoff.delay (checks : Bool) (rng : Int) (attempt : Nat) (b : Backoff) : Option Delta :=
  ((b.strategy.delay checks attempt).bind fun d =>
    (addOffset b.offset d).bind fun d =>
      addJitter rng b.jitter d).map fun d => max d b.min

/-- The literal `0.1`: the nearest `f64`. -/
def F64.tenth : F64 := .fin (3602879701896397 * 2 ^ 1019)

/-- `DEFAULT_BACKOFF_STRATEGY`, rexecutor/src/executor.rs:129-132. -/
def defaultBackoff : Backoff :=
  (BackoffCtor.exponential (4 * sec)).build [.withMax (7 * 86400 * sec), .withJitter (.relative .tenth)]

end Rexecutor
