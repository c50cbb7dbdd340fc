import Verif.Spec.Segmentation

/-! How many occurrences of tokens and sequences a text contains. -/

namespace Tokens.Spec
open Tokens

/-- The number of tokens and sequences whose bytes end the text. -/
def endingAt (ts : TokenSet) (text : Bytes) : Nat :=
  ((pieceStrings ts).filter (fun s => s.isSuffixOf text)).length

/-- The number of occurrences of tokens and sequences in the text, counted at their ends. -/
def occurrences (ts : TokenSet) (text : Bytes) : Nat :=
  ((List.range text.length).map (fun j => endingAt ts (text.take (j + 1)))).sum

end Tokens.Spec
