import Verif.Spec.Segmentation

/-!
Specification of what a token set means, independent of the numbering of its tokens.
-/

namespace Tokens.Spec
open Tokens

/-- The tokens a sequence lists (`none` for a number that is out of range). -/
def listed (ts : TokenSet) (q : Sequence) : List (Option Token) := q.tokens.map (ts.tokens[·]?)

/-- For every sequence, its string and the tokens it lists. -/
def meaning (ts : TokenSet) : List (Bytes × List (Option Token)) :=
  ts.sequences.map (fun q => (q.string, listed ts q))

/-- The documented order of tokens: ext tokens first, by number; then strings, in the usual
lexicographic order of byte strings (`≤` of `List`). -/
def TokenBefore : Token → Token → Prop
  | .ext x, .ext y => x ≤ y
  | .ext _, .str _ => True
  | .str _, .ext _ => False
  | .str x, .str y => x ≤ y

/-- Same type, processing, flag and number of ext tokens. -/
structure SameHeader (a b : TokenSet) : Prop where
  nExt : a.nExt = b.nExt
  tokenType : a.tokenType = b.tokenType
  processing : a.processing = b.processing
  splitParagraphs : a.splitParagraphs = b.splitParagraphs

/-- The same token set up to the numbering of tokens and the order of sequences. -/
structure SameSet (a b : TokenSet) : Prop where
  header : SameHeader a b
  tokens : a.tokens.Perm b.tokens
  sequences : (meaning a).Perm (meaning b)

/-- Reading digits, most significant first, in base `base`. -/
def horner (base : Nat) (ds : List Nat) : Nat := ds.foldl (fun acc d => acc * base + d) 0

end Tokens.Spec
