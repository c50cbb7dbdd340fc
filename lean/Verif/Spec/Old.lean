import Verif.Model.Old

/-!
Specification for the first generation of the tokenizer (`tokens.rs`, `tokenizer.rs`, `stats.rs`): ways to
cut a text into tokens and literal bytes.
-/

namespace Tokens.Spec.Old
open Tokens Tokens.Old

/-- A piece of a text: a token, by its number, or a byte written as a literal. -/
inductive Piece where
  | tok (i : Nat)
  | lit (b : UInt8)
  deriving DecidableEq, Repr

/-- The text of a piece. -/
def text (ts : OSet) : Piece → Option Bytes
  | .tok i => (ts.tokens[i]?).map OToken.string
  | .lit b => some [b]

/-- The pieces, one after the other, are the text. -/
inductive Spells (ts : OSet) : List Piece → Bytes → Prop where
  | nil : Spells ts [] []
  | cons {p : Piece} {ps : List Piece} {s x : Bytes} (h : text ts p = some s) (hs : Spells ts ps x) :
      Spells ts (p :: ps) (s ++ x)

/-- What a list of pieces costs: 1 for a token, `literal_cost` for a literal. -/
def cost (lc : Nat) : List Piece → Nat
  | [] => 0
  | .tok _ :: ps => 1 + cost lc ps
  | .lit _ :: ps => lc + cost lc ps

/-- A cheapest way to write the text. -/
structure Cheapest (ts : OSet) (x : Bytes) (ps : List Piece) : Prop where
  spells : Spells ts ps x
  least : ∀ qs, Spells ts qs x → cost ts.literal.literalCost ps ≤ cost ts.literal.literalCost qs

/-- Each of the pieces is as long as it can be: no cheapest way to write the text up to its end ends with a
longer piece. -/
def Longest (ts : OSet) (ps : List Piece) : Prop :=
  ∀ (as : List Piece) (p : Piece) (bs : List Piece), ps = as ++ p :: bs →
    ∀ y, Spells ts (as ++ [p]) y → ∀ qs q, Cheapest ts y (qs ++ [q]) →
      ∀ s t, text ts p = some s → text ts q = some t → t.length ≤ s.length

/-- The pairs of neighbouring tokens. -/
def neighbours : List Piece → List (Nat × Nat)
  | .tok a :: .tok b :: ps => (a, b) :: neighbours (.tok b :: ps)
  | _ :: ps => neighbours ps
  | [] => []

/-- The sets that can be made with the methods of `TokenSet`: `new`, `add_token` with a string that is not
empty, and `remove_token`. -/
inductive Made : OSet → Prop where
  | new {le : LiteralEncoding} {ts : OSet} (h : OSet.new le = .ok ts) : Made ts
  | add {ts ts' : OSet} {s : Bytes} (hm : Made ts) (hs : s ≠ []) (h : ts.addToken s = .ok ts') : Made ts'
  | remove {ts ts' : OSet} {s : Bytes} (hm : Made ts) (h : ts.removeToken s = .ok ts') : Made ts'

/-- What statistics say about a list of texts, each cut into pieces. -/
structure Counted (st : OStats) (texts : List Bytes) (cut : List (List Piece)) (pairs : Bool) : Prop where
  tokens : ∀ i, st.tokenCount.getD i 0 = (cut.map (·.count (.tok i))).sum
  literals : ∀ b : UInt8, st.literalCount.getD b.toNat 0 = (cut.map (·.count (.lit b))).sum
  pairs : ∀ i j, i < 65536 → j < 65536 → st.pairCount (i * 65536 + j) =
    if pairs then (cut.map (fun ps => (neighbours ps).count (i, j))).sum else 0
  scanned : st.scannedBytes = texts.flatten.length

end Tokens.Spec.Old
