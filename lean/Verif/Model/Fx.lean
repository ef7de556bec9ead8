import Verif.Model.Pg

/-!
# The hash function of uniqueness keys

`fxhash` 0.2.1 is a dependency and not part of the repository. What is assumed about
it: `FxHasher64` starts at 0 and takes one word after the other with
`hash = (hash.rotate_left(5) ^ word) * 0x517cc1b727220a95`; strings are taken eight
bytes at a time, then four, then one by one (little endian). About Rust's `Hash`:
an enum is hashed by its discriminant as one word, a slice by its length and then its
elements, a string by its bytes and then the byte 255.
-/

namespace Rexecutor

/-- One word taken by `FxHasher64`. -/
def fxWord (h w : BitVec 64) : BitVec 64 := (h.rotateLeft 5 ^^^ w) * 0x517cc1b727220a95#64

/-- The discriminants of `JobStatus`, rexecutor/src/job.rs:149-171. -/
def JobStatus.discriminant : JobStatus → BitVec 64
  | .complete => 0
  | .executing => 1
  | .scheduled => 2
  | .retryable => 3
  | .cancelled => 4
  | .discarded => 5

/-- Little-endian bytes as a word. -/
def leWord : List UInt8 → BitVec 64
  | [] => 0
  | b :: bs => BitVec.ofNat 64 b.toNat + 256#64 * leWord bs

/-- `FxHasher64::write`. -/
def fxBytes (h : BitVec 64) : List UInt8 → BitVec 64
  | a :: b :: c :: d :: e :: f :: g :: i :: rest => fxBytes (fxWord h (leWord [a, b, c, d, e, f, g, i])) rest
  | a :: b :: c :: d :: rest =>
    (rest.map fun b => BitVec.ofNat 64 b.toNat).foldl fxWord (fxWord h (leWord [a, b, c, d]))
  | rest => (rest.map fun b => BitVec.ofNat 64 b.toNat).foldl fxWord h

/-- The UTF-8 bytes of a string. -/
def utf8Bytes (s : String) : List UInt8 := s.toList.flatMap String.utf8EncodeChar

/-- `unique_identifier`, rexecutor-sqlx/src/unique.rs:19-27, with `FxHasher64`. -/
def fxHash : HashFn := fun key executor statuses =>
  let h := match key with
    | none => fxWord 0 0
    | some k => fxWord (fxWord 0 1) (BitVec.ofInt 64 k)
  let h := match executor with
    | none => h
    | some x => fxWord (fxBytes h (utf8Bytes x)) 255
  let h := fxWord h (BitVec.ofNat 64 statuses.length)
  ((statuses.map JobStatus.discriminant).foldl fxWord h).toInt

/-- `fxhash::hash64(value) as i64` for a `u64`,
rexecutor/src/job/uniqueness_criteria.rs:579. -/
def fxKeyU64 (v : Nat) : Int := (fxWord 0 (BitVec.ofNat 64 v)).toInt

end Rexecutor
