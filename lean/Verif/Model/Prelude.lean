/-
Shared conventions of the model: explicit panics, byte strings, maps keyed by byte strings.
-/

namespace Tokens

/-- The ways in which the Rust code can fail to return a value.  `fuel` is not a Rust panic: it is
returned by a bounded rendering of a Rust loop whose bound was too small (the theorems show that it
never happens). -/
inductive Err where
  /-- `assert!` / `assert_eq!` failed -/
  | assertFailed
  /-- `.unwrap()` on `None` / `Err` -/
  | unwrapNone
  /-- `.unwrap_err()` on `Ok` -/
  | unwrapErr
  /-- slice or vector index out of bounds -/
  | index
  /-- `unreachable!()` -/
  | unreachable
  /-- `panic!()` -/
  | panic
  /-- unsigned subtraction below zero -/
  | underflow
  /-- unsigned addition beyond the largest value, in a build with overflow checks -/
  | overflow
  /-- loop bound of the model exhausted -/
  | fuel
  deriving DecidableEq, Repr

/-- Result of a computation that may panic. -/
abbrev R (α : Type) := Except Err α

abbrev Byte := UInt8
/-- `Vec<u8>` / `&[u8]`. -/
abbrev Bytes := List UInt8

/-- `assert!(b)`. -/
def rassert (b : Bool) : R Unit := if b then .ok () else .error .assertFailed

/-- `v[i]` on a slice or vector. -/
def getR {α : Type} (l : List α) (i : Nat) : R α :=
  match l[i]? with
  | some a => .ok a
  | none => .error .index

/-- `.unwrap()` on an `Option`. -/
def unwrapR {α : Type} (o : Option α) : R α :=
  match o with
  | some a => .ok a
  | none => .error .unwrapNone

/-- `a - b` on `usize` (a panic in a checked build). -/
def subR (a b : Nat) : R Nat := if b ≤ a then .ok (a - b) else .error .underflow

/-- `v[i] += n`. -/
def addAt (l : List Nat) (i n : Nat) : R (List Nat) :=
  match l[i]? with
  | some a => .ok (l.set i (a + n))
  | none => .error .index

/-- `HashMap<Vec<u8>, usize>`, never iterated over in the modelled code. -/
abbrev StrMap := Bytes → Option Nat

/-- `HashMap::insert`. -/
def StrMap.insert (m : StrMap) (k : Bytes) (v : Nat) : StrMap :=
  fun x => if x = k then some v else m x

/-- All 256 bytes in ascending order: `0..=255` at type `u8`. -/
def allBytes : List UInt8 := (List.range 256).map UInt8.ofNat

/-- The loop `for start in 0..s.len() { if let Some(&i) = m.get(&s[start..]) { found = i; break } }`
(src/tokenizer2.rs:147-152, 171-178; with `s` the tail of the span also lines 113-119). -/
def firstSuffix (m : StrMap) : Bytes → Option Nat
  | [] => none
  | b :: bs =>
    match m (b :: bs) with
    | some i => some i
    | none => firstSuffix m bs

end Tokens
