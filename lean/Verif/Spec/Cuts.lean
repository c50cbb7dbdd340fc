import Verif.Spec.Family

/-!
Specification for how cutting the data into samples changes the counts, and how good and bad a
tokenization can be.
-/

namespace Tokens.Spec
open Tokens

/-- No token and no sequence stands for more than `m` bytes. -/
def PiecesUpTo (ts : TokenSet) (m : Nat) : Prop := ∀ s ∈ pieceStrings ts, s.length ≤ m

/-- Every byte on its own can be written with one token, or a sequence of at most `k` tokens. -/
def BytesWithin (ts : TokenSet) (k : Nat) : Prop :=
  1 ≤ k ∧ ∀ b : UInt8, [b] ∈ strTokens ts ∨ ∃ q ∈ ts.sequences, q.string = [b] ∧ q.tokens.length ≤ k

/-- The number of tokens that a byte may need, by type. -/
def tokensPerByte : TokenType → Nat
  | .bits1 => 8
  | .bits2 => 4
  | .bits4 => 2
  | .bytes => 1
  | .bytesHuff => 256

end Tokens.Spec
