import Mathlib.Data.Int.Log
import Mathlib.Data.Rat.Floor

/-!
Model of Rust's `f64` as far as the code uses it: conversion from unsigned integers, subtraction,
division, `abs` and `<` (`/repo/src/input/memory_sampler.rs:22-53`, `/repo/src/stats2.rs:49-51, 64` and
`/repo/src/main.rs:182-184`).

A finite number is its value, a rational.  Results are rounded to 53 significant bits, to nearest, ties
to even (IEEE 754 binary64).  Simplifications: the exponent is unbounded, which changes nothing for
quotients of 64-bit integers and for quotients of their differences (all exponents stay between -300
and 300), and the two zeros are one number (no operation of the code tells them apart: a zero divisor
always comes from an integer).
-/

namespace Tokens

/-- Round to the nearest integer, ties to even. -/
def roundEven (x : ℚ) : ℤ :=
  let f := ⌊x⌋
  if x - f < 1 / 2 then f
  else if 1 / 2 < x - f then f + 1
  else if f % 2 = 0 then f
  else f + 1

/-- The distance of neighbouring 53-bit numbers around a positive `q`. -/
def ulp (q : ℚ) : ℚ := 2 ^ (Int.log 2 q - 52)

/-- Round a positive number to 53 bits. -/
def roundPos (q : ℚ) : ℚ := roundEven (q / ulp q) * ulp q

/-- Round to 53 bits. -/
def round53 (q : ℚ) : ℚ := if 0 < q then roundPos q else if q < 0 then - roundPos (-q) else 0

/-- `f64`. -/
inductive F64 where
  | nan
  | inf (negative : Bool)
  | fin (q : ℚ)

namespace F64

/-- `n as f64`. -/
def ofNat (n : Nat) : F64 := .fin (round53 n)

/-- `x / y`. -/
def div : F64 → F64 → F64
  | .fin a, .fin b =>
    if b = 0 then (if a = 0 then .nan else .inf (decide (a < 0))) else .fin (round53 (a / b))
  | .inf s, .fin b => .inf (s != decide (b < 0))
  | .fin _, .inf _ => .fin 0
  | _, _ => .nan

/-- `x - y`. -/
def sub : F64 → F64 → F64
  | .fin a, .fin b => .fin (round53 (a - b))
  | .inf s, .fin _ => .inf s
  | .fin _, .inf s => .inf (!s)
  | .inf s, .inf t => if s = t then .nan else .inf s
  | _, _ => .nan

/-- `x.abs()`. -/
def abs : F64 → F64
  | .fin a => .fin |a|
  | .inf _ => .inf false
  | .nan => .nan

/-- `x < y`. -/
def lt : F64 → F64 → Bool
  | .fin a, .fin b => decide (a < b)
  | .fin _, .inf s => !s
  | .inf s, .fin _ => s
  | .inf s, .inf t => s && !t
  | _, _ => false

end F64
end Tokens
