import Verif.Model.Stats

/-!
Specification of tokenization, independent of the tokenizer: what it means to cut a text into
pieces of a token set, what is output for it, and what the statistics of a segmentation are.
Only the data type `TokenSet` is used.
-/

namespace Tokens.Spec
open Tokens

/-- A piece of a segmentation: the use of token number `i` or of sequence number `j`. -/
inductive Piece where
  | tok (i : Nat)
  | seq (j : Nat)
  deriving DecidableEq, Repr

/-- The bytes a piece stands for (ext tokens stand for nothing on their own). -/
def Piece.string (ts : TokenSet) : Piece → Option Bytes
  | .tok i => match ts.tokens[i]? with
    | some (.str s) => some s
    | _ => none
  | .seq j => match ts.sequences[j]? with
    | some q => some q.string
    | none => none

/-- The token numbers written to the output for a piece. -/
def Piece.output (ts : TokenSet) : Piece → List Nat
  | .tok i => [i]
  | .seq j => match ts.sequences[j]? with
    | some q => q.tokens
    | none => []

/-- `ps` is a segmentation of `text`: the strings of the pieces concatenate to it. -/
inductive Spells (ts : TokenSet) : List Piece → Bytes → Prop
  | nil : Spells ts [] []
  | cons {p s ps t} : p.string ts = some s → Spells ts ps t → Spells ts (p :: ps) (s ++ t)

/-- The output of a segmentation: a list of token numbers. -/
def output (ts : TokenSet) (ps : List Piece) : List Nat := ps.flatMap (Piece.output ts)

/-- `ps` is a segmentation of `text` with the fewest output tokens. -/
def Optimal (ts : TokenSet) (text : Bytes) (ps : List Piece) : Prop :=
  Spells ts ps text ∧ ∀ qs, Spells ts qs text → (output ts ps).length ≤ (output ts qs).length

/-- The segmentation found by cutting off, from the end, always the longest piece that ends some
optimal segmentation of the text up to that point. -/
inductive LongestLast (ts : TokenSet) : List Piece → Bytes → Prop
  | nil : LongestLast ts [] []
  | snoc {ps t p s} : LongestLast ts ps t → p.string ts = some s →
      Optimal ts (t ++ s) (ps ++ [p]) →
      (∀ qs q r, q.string ts = some r → Optimal ts (t ++ s) (qs ++ [q]) → r.length ≤ s.length) →
      LongestLast ts (ps ++ [p]) (t ++ s)

/-- Number of places in `ps` where token piece `b` immediately follows token piece `a`. -/
def pairOcc (a b : Nat) : List Piece → Nat
  | .tok x :: .tok y :: rest =>
    (if x = a ∧ y = b then 1 else 0) + pairOcc a b (.tok y :: rest)
  | _ :: rest => pairOcc a b rest
  | [] => 0

/-- The text a token stands for; ext tokens stand for none. -/
def tokenText : Token → Option Bytes
  | .str s => some s
  | .ext _ => none

/-- The strings of all tokens that stand for text. -/
def strTokens (ts : TokenSet) : List Bytes := ts.tokens.filterMap tokenText

/-- All strings that can be used as pieces: token strings and sequence strings. -/
def pieceStrings (ts : TokenSet) : List Bytes := strTokens ts ++ ts.sequences.map (·.string)

/-- A token set usable for tokenization: distinct non-empty strings that include every byte. -/
structure Tokenizable (ts : TokenSet) : Prop where
  nodup : (pieceStrings ts).Nodup
  nonempty : ∀ s ∈ pieceStrings ts, s ≠ []
  bytes : ∀ b : UInt8, [b] ∈ pieceStrings ts

/-- All sequences refer to existing tokens. -/
def SeqsInRange (ts : TokenSet) : Prop :=
  ∀ q ∈ ts.sequences, ∀ i ∈ q.tokens, i < ts.tokens.length

/-- The statistics object has the array sizes that `TokenStats::new` gives it for `ts`. -/
structure Shaped (ts : TokenSet) (st : TokenStats) : Prop where
  tokenSet : st.tokenSet = ts
  tokenCounts : st.tokenCounts.length = ts.tokens.length
  seqCounts : st.seqCounts.length = ts.sequences.length
  pairCounts : st.pairCounts.length = ts.tokens.length * ts.tokens.length

/-- `st'` is `st` plus the counts of the segmentation `ps` of a text of `len` bytes. -/
structure Counted (ts : TokenSet) (ps : List Piece) (len : Nat) (st st' : TokenStats) : Prop where
  tokenSet : st'.tokenSet = st.tokenSet
  initialSize : st'.initialSize = st.initialSize
  total : st'.totalTokens = st.totalTokens + (output ts ps).length
  scanned : st'.scannedBytes = st.scannedBytes + len
  tokenLen : st'.tokenCounts.length = st.tokenCounts.length
  token : ∀ i < ts.tokens.length,
    st'.tokenCounts.getD i 0 = st.tokenCounts.getD i 0 + (output ts ps).count i
  seqLen : st'.seqCounts.length = st.seqCounts.length
  seq : ∀ j < ts.sequences.length,
    st'.seqCounts.getD j 0 = st.seqCounts.getD j 0 + ps.count (.seq j)
  pairLen : st'.pairCounts.length = st.pairCounts.length
  pair : ∀ a < ts.tokens.length, ∀ b < ts.tokens.length,
    st'.pairCounts.getD (a * ts.tokens.length + b) 0 =
      st.pairCounts.getD (a * ts.tokens.length + b) 0 + pairOcc a b ps

end Tokens.Spec
