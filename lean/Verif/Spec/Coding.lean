import Verif.Spec.Family
import Verif.Spec.ByteUse
import Mathlib.Analysis.SpecialFunctions.Log.Base

/-!
Specification of codes for bytes, and of the least number of bits that counted bytes need.
-/

namespace Tokens.Spec
open Tokens

/-- A way to write bytes with `k` different symbols: a text can be read back from the symbols written for
its bytes one after the other. -/
def ReadableCode {k : Nat} (code : UInt8 → List (Fin k)) : Prop :=
  ∀ s t : Bytes, s.flatMap code = t.flatMap code → s = t

/-- The entropy in bits of all bytes together, byte `b` occurring `uses b` times: `uses b · log2 (all / uses b)`,
added up. -/
noncomputable def entropyBits (uses : UInt8 → Nat) : ℝ :=
  (allBytes.map (fun b => (uses b : ℝ) * Real.logb 2 ((allBytes.map uses).sum / (uses b : ℝ)))).sum

/-- The number of symbols that the code needs for all bytes together. -/
def codeTotal {k : Nat} (code : UInt8 → List (Fin k)) (uses : UInt8 → Nat) : Nat :=
  (allBytes.map (fun b => (code b).length * uses b)).sum

/-- All texts of `len` bytes. -/
def allTexts : Nat → List Bytes
  | 0 => [[]]
  | len + 1 => allBytes.flatMap (fun b => (allTexts len).map (fun t => b :: t))

end Tokens.Spec
