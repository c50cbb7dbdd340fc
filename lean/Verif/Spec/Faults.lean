import Verif.Spec.Disk

/-!
Specification for commands on devices that may fail.
-/

namespace Tokens.Spec
open Tokens Disk

/-- The bytes used instead of a text: a beginning of it, with at most the last 8192 bytes missing. -/
def AlmostAll (whole out : Bytes) : Prop := ∃ lost, out ++ lost = whole ∧ lost.length ≤ 8192

/-- The command does not process data itself: it does not have to, because the processing is raw, or it is
given the processed data. -/
def DataGiven (d : Files) : Command → Prop
  | .process _ _ => False
  | .countChars _ => True
  | .convert _ processed inputTokens _ => processed.isSome = true ∨
      ∀ b ts, d.read inputTokens = some b → readTokenSet b = .ok ts → ts.processing = .raw
  | .optimize _ processed _ p _ _ _ _ => p = .raw ∨ processed.isSome = true

end Tokens.Spec
