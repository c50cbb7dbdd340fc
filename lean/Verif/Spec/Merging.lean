import Verif.Model.Batch

/-!
Specification for the merging of statistics: any way of splitting work into parts, and any order and
grouping of `merge` calls.
-/

namespace Tokens.Spec
open Tokens

/-- A plan: parts tokenized on their own, merged in pairs in some order and grouping. -/
inductive Plan where
  | part (samples : List Bytes)
  | merged (a b : Plan)

/-- All samples of a plan. -/
def Plan.samples : Plan → List Bytes
  | .part ss => ss
  | .merged a b => a.samples ++ b.samples

/-- Carry out a plan: every part is tokenized into fresh statistics, then merged. -/
def Plan.run (ts : TokenSet) : Plan → R TokenStats
  | .part ss => Batch.tokenizeFileSync ts ss none
  | .merged a b => do
    let x ← a.run ts
    let y ← b.run ts
    x.merge y

/-- Length of the text of token number `i`; 0 for ext tokens. -/
def textLen (ts : TokenSet) (i : Nat) : Nat :=
  match ts.tokens[i]? with
  | some (.str s) => s.length
  | _ => 0

/-- `f 0 + ... + f (n-1)`. -/
def sumTo (n : Nat) (f : Nat → Nat) : Nat := ((List.range n).map f).sum

end Tokens.Spec
