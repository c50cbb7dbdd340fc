import Verif.Spec.Optimizing

/-!
Specification for the order in which the optimizer writes files: what it means that one set is an
improvement on another.
-/

namespace Tokens.Spec
open Tokens Optimize

/-- Set `b`, for which the data needs `sb` tokens, is an improvement on set `a`, for which it needs `sa`
tokens: it has no fewer tokens; if its file has the same name then it needs strictly fewer; and for types
other than byteshuff it needs no more. -/
structure Improves (ty : TokenType) (env : Env) (a b : TokenSet) : Prop where
  size : a.tokens.length ≤ b.tokens.length
  same : a.name = b.name → ∀ sa sb, Fresh env a sa → Fresh env b sb → sb.totalTokens < sa.totalTokens
  less : ty ≠ .bytesHuff → ∀ sa sb, Fresh env a sa → Fresh env b sb → sb.totalTokens ≤ sa.totalTokens

/-- The files `fs` hold the sets `sets`, in this order, and each set is an improvement on every earlier
one. -/
structure GetBetter (ty : TokenType) (env : Env) (sets : List TokenSet) (fs : List (Text × Text)) : Prop where
  files : sets.map savedFile = fs.map .ok
  stats : ∀ ts ∈ sets, ∃ st, Fresh env ts st
  better : sets.Pairwise (Improves ty env)

end Tokens.Spec
