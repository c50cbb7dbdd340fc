import Verif.Model.Chars

/-!
Specification for the tokenizer over characters (`/repo/src/chars`): ways to cut a text into tokens and
single characters.
-/

namespace Tokens.Spec.Chars
open Tokens Tokens.Chars

/-- The sets that can be made with the methods of `CharsTokenSet`. -/
inductive Made : CSet → Prop where
  | new (numExt : Nat) : Made (CSet.new numExt)
  | char {ts : CSet} (c : Char) (h : Made ts) : Made (ts.addCharToken c)
  | string {ts : CSet} (s : Text) (h : Made ts) : Made (ts.addString s)
  | encoding {ts : CSet} (c : Char) (enc : List Nat) (h : Made ts) : Made (ts.addEncoding c enc)

/-- A piece of a text: a token, by its number, or a character written with its encoding. -/
inductive Piece where
  | tok (i : Nat)
  | lit (c : Char)
  deriving DecidableEq, Repr

/-- Some token of the set is this text. -/
def IsToken (ts : CSet) (s : Text) : Prop := ∃ t ∈ ts.tokens, t.text = some s

/-- The text of a piece.  Only a character that is not itself a token is written with its encoding. -/
inductive Says (ts : CSet) : Piece → Text → Prop where
  | tok {i : Nat} {t : CToken} {s : Text} (hi : ts.tokens[i]? = some t) (hs : t.text = some s) :
      Says ts (.tok i) s
  | lit {c : Char} (h : ¬ IsToken ts [c]) : Says ts (.lit c) [c]

/-- The pieces, one after the other, are the text. -/
inductive Spells (ts : CSet) : List Piece → Text → Prop where
  | nil : Spells ts [] []
  | cons {p : Piece} {ps : List Piece} {s x : Text} (h : Says ts p s) (hs : Spells ts ps x) :
      Spells ts (p :: ps) (s ++ x)

/-- How many tokens a character takes: the length of its encoding; without an encoding 0 for characters
below 256, and 32 for the others. -/
def encLength (ts : CSet) (c : Char) : Nat :=
  if c.toNat < 256 then (ts.loEnc c).length
  else match ts.hiEnc c with
    | some enc => enc.length
    | none => 32

/-- How many tokens the pieces are. -/
def cost (ts : CSet) : List Piece → Nat
  | [] => 0
  | .tok _ :: ps => 1 + cost ts ps
  | .lit c :: ps => encLength ts c + cost ts ps

/-- A cheapest way to write the text. -/
structure Cheapest (ts : CSet) (x : Text) (ps : List Piece) : Prop where
  spells : Spells ts ps x
  least : ∀ qs, Spells ts qs x → cost ts ps ≤ cost ts qs

/-- The pairs of neighbouring tokens. -/
def neighbours : List Piece → List (Nat × Nat)
  | .tok a :: .tok b :: ps => (a, b) :: neighbours (.tok b :: ps)
  | _ :: ps => neighbours ps
  | [] => []

/-- A piece that stands for one character: one written with its encoding, or a token made for a character. -/
def isLiteral (ts : CSet) : Piece → Bool
  | .lit _ => true
  | .tok i => match ts.tokens[i]? with
    | some (.char _) => true
    | _ => false

/-- No encoding has 256 tokens or more. -/
def ShortEncodings (ts : CSet) : Prop := ∀ c, encLength ts c < 256

/-- What statistics say about texts that were cut into pieces. -/
structure Counted (ts : CSet) (st : CStats) (cut : List (List Piece)) : Prop where
  total : st.total = (cut.map (cost ts)).sum
  literals : st.literals = (cut.map (·.countP (isLiteral ts))).sum
  pairs : ts.tokens.length ≤ 65536 → ∀ i j,
    st.pairs i j = (cut.map (fun ps => (neighbours ps).count (i, j))).sum

end Tokens.Spec.Chars
