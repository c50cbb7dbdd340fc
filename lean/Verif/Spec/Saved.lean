import Verif.Spec.Views

/-!
Specification of the token sets that are saved to files and used as cache keys.
-/

namespace Tokens.Spec
open Tokens

/-- The number of ext tokens in a list of tokens. -/
def extCount : List Token → Nat
  | [] => 0
  | .ext _ :: ts => extCount ts + 1
  | .str _ :: ts => extCount ts

/-- Token sets that are determined by what is written about them: distinct tokens, the declared
number of ext tokens is right, and every sequence lists two tokens or more. -/
structure Identified (ts : TokenSet) : Prop where
  distinct : ts.tokens.Nodup
  exts : ts.nExt = extCount ts.tokens
  long : ∀ q ∈ ts.sequences, 2 ≤ q.tokens.length

/-- The number of ext tokens that a type requires, if it requires one. -/
def requiredExts : TokenType → Option Nat
  | .bits1 => some 2
  | .bits2 => some 4
  | .bits4 => some 16
  | .bytes => some 0
  | .bytesHuff => none

/-- Token sets as the program makes them: ext tokens 0, 1, 2, ... (as many as declared, fewer than
256, and the right number for the type) come first, then distinct non-empty strings; every sequence
lists two existing tokens or more. -/
structure Regular (ts : TokenSet) : Prop where
  tokens : ts.tokens =
    (List.range ts.nExt).map (fun i => Token.ext (UInt8.ofNat i)) ++ (strTokens ts).map Token.str
  few : ts.nExt < 256
  required : ∀ n, requiredExts ts.tokenType = some n → ts.nExt = n
  distinct : (strTokens ts).Nodup
  nonempty : ∀ s ∈ strTokens ts, s ≠ []
  inRange : SeqsInRange ts
  long : ∀ q ∈ ts.sequences, 2 ≤ q.tokens.length

end Tokens.Spec
