import Verif.Spec.Optimizing

/-!
Specification of a set that lacks one token of another.
-/

namespace Tokens.Spec
open Tokens

/-- `ts1` is `ts` without the token `s` (in whatever numbering). -/
structure Without (ts : TokenSet) (s : Bytes) (ts1 : TokenSet) : Prop where
  header : SameHeader ts1 ts
  tokens : ts1.tokens.Perm (ts.tokens.erase (.str s))
  sequences : (meaning ts1).Perm (meaning ts)

end Tokens.Spec
