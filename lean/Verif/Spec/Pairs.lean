import Verif.Spec.Merging
import Verif.Spec.Sampling

/-!
Specification of the choice of the most frequent pair.
-/

namespace Tokens.Spec
open Tokens

/-- How often `st` has seen token `b` right after token `a`. -/
def pairCount (st : TokenStats) (a b : Nat) : Nat :=
  st.pairCounts.getD (a * st.tokenSet.tokens.length + b) 0

/-- The pair of tokens `a`, `b` was seen, and `s` is the text of the two together. -/
structure SeenPair (st : TokenStats) (a b : Nat) (s : Bytes) : Prop where
  seen : 0 < pairCount st a b
  text : ∃ s1 s2, st.tokenSet.tokens[a]? = some (.str s1) ∧
    st.tokenSet.tokens[b]? = some (.str s2) ∧ s = s1 ++ s2

/-- Pair `a`, `b` comes before pair `c`, `d` in the numbering. -/
def PairBefore (a b c d : Nat) : Prop := a < c ∨ (a = c ∧ b ≤ d)

end Tokens.Spec
