import Verif.Model.Stats

/-! Statistics of the same token set, all counts multiplied. -/

namespace Tokens.Spec
open Tokens

/-- `b` is about the same token set as `a`, with every count `k` times as large.  (`initial_size` is given
to the tokenizer and not counted by it.) -/
structure Times (k : Nat) (a b : TokenStats) : Prop where
  tokenSet : b.tokenSet = a.tokenSet
  total : b.totalTokens = k * a.totalTokens
  scanned : b.scannedBytes = k * a.scannedBytes
  tokens : b.tokenCounts = a.tokenCounts.map (k * ·)
  seqs : b.seqCounts = a.seqCounts.map (k * ·)
  pairs : b.pairCounts = a.pairCounts.map (k * ·)

end Tokens.Spec
