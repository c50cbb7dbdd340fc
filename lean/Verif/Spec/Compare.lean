import Verif.Spec.Segmentation

/-! What it means that a set can do with as few tokens whatever another one can. -/

namespace Tokens.Spec
open Tokens

/-- The text `s` can be written with tokens and sequences of `ts` as at most `c` output tokens. -/
def Writes (ts : TokenSet) (s : Bytes) (c : Nat) : Prop :=
  ∃ ps, Spells ts ps s ∧ (output ts ps).length ≤ c

/-- What a token or a sequence of `a` stands for can be written with `b` as at most as many output tokens. -/
structure Covers (b a : TokenSet) : Prop where
  token : ∀ s ∈ strTokens a, Writes b s 1
  sequence : ∀ q ∈ a.sequences, Writes b q.string q.tokens.length

end Tokens.Spec
