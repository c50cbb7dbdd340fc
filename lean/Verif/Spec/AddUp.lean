import Verif.Spec.Merging
import Verif.Spec.Pairs

/-!
What the counters of one tokenization have to do with each other.
-/

namespace Tokens.Spec
open Tokens

/-- How often token `i` was written as part of a sequence. -/
def insideSequences (st : TokenStats) (i : Nat) : Nat :=
  sumTo st.tokenSet.sequences.length (fun j =>
    st.seqCounts.getD j 0 * (((st.tokenSet.sequences[j]?).map (·.tokens)).getD []).count i)

/-- How often token `i` was written for its own text. -/
def forItself (st : TokenStats) (i : Nat) : Nat := st.tokenCounts.getD i 0 - insideSequences st i

/-- The counters of a tokenization of `samples` agree with each other. -/
structure AddUp (samples : List Bytes) (st : TokenStats) : Prop where
  /-- no token was written less often than the sequences need it -/
  inside : ∀ i < st.tokenSet.tokens.length, insideSequences st i ≤ st.tokenCounts.getD i 0
  /-- a token without text is only written in sequences -/
  ext : ∀ i k, st.tokenSet.tokens[i]? = some (.ext k) → forItself st i = 0
  /-- token `a` is followed by other tokens at most as often as it was written for itself -/
  row : ∀ a < st.tokenSet.tokens.length,
    sumTo st.tokenSet.tokens.length (fun b => pairCount st a b) ≤ forItself st a
  /-- token `b` follows other tokens at most as often as it was written for itself -/
  column : ∀ b < st.tokenSet.tokens.length,
    sumTo st.tokenSet.tokens.length (fun a => pairCount st a b) ≤ forItself st b
  /-- every piece but the last of a sample is followed by one more piece, … -/
  few : st.pairCounts.sum + (samples.filter (· ≠ [])).length ≤
    sumTo st.tokenSet.tokens.length (forItself st) + st.seqCounts.sum
  /-- … and a pair is missed only at a sequence or at the end of a sample -/
  many : sumTo st.tokenSet.tokens.length (forItself st) ≤
    st.pairCounts.sum + st.seqCounts.sum + (samples.filter (· ≠ [])).length
  /-- all tokens: those written for themselves and those of the sequences -/
  total : st.totalTokens = sumTo st.tokenSet.tokens.length (forItself st) +
    sumTo st.tokenSet.sequences.length (fun j =>
      st.seqCounts.getD j 0 * (((st.tokenSet.sequences[j]?).map (·.tokens)).getD []).length)

end Tokens.Spec
