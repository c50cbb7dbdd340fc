import Verif.Spec.Views
import Verif.Spec.Pairs

/-! What it means for two statistics to agree when tokens and sequences are numbered differently. -/

namespace Tokens.Spec
open Tokens

/-- The statistics agree on all totals, on the count of every token, of every sequence and of every
pair of tokens, where tokens and sequences are identified by what they are and not by their number. -/
structure SameStats (x y : TokenStats) : Prop where
  total : x.totalTokens = y.totalTokens
  scanned : x.scannedBytes = y.scannedBytes
  initialSize : x.initialSize = y.initialSize
  token : ∀ (i j : Nat) (t : Token), x.tokenSet.tokens[i]? = some t → y.tokenSet.tokens[j]? = some t →
    x.tokenCounts.getD i 0 = y.tokenCounts.getD j 0
  seq : ∀ (i j : Nat) (q r : Sequence), x.tokenSet.sequences[i]? = some q →
    y.tokenSet.sequences[j]? = some r → q.string = r.string →
    x.seqCounts.getD i 0 = y.seqCounts.getD j 0
  pair : ∀ (i j i' j' : Nat) (t u : Token), x.tokenSet.tokens[i]? = some t →
    y.tokenSet.tokens[i']? = some t → x.tokenSet.tokens[j]? = some u →
    y.tokenSet.tokens[j']? = some u → pairCount x i j = pairCount y i' j'

end Tokens.Spec
