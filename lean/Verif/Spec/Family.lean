import Verif.Spec.Views

/-!
Specification of the families of token sets that the program makes: what the sequences look like
(independent of the numbering of tokens, through `meaning`), and what "lossless" means.
-/

namespace Tokens.Spec
open Tokens

/-- The bytes that have a token of their own. -/
def byteTokens (ts : TokenSet) : List UInt8 :=
  ts.tokens.filterMap (fun t => match t with
    | .str [b] => some b
    | _ => none)

/-- The strings of the tokens of two bytes or more. -/
def longTokens (ts : TokenSet) : List Bytes := (strTokens ts).filter (fun s => decide (1 < s.length))

/-- What all families have in common: the tokenizer accepts the set, sequences refer to existing
tokens, tokens are distinct, and the ext tokens are `0 .. nExt-1`. -/
structure Usable (ts : TokenSet) : Prop where
  accepted : Tokenizable ts
  inRange : SeqsInRange ts
  distinct : ts.tokens.Nodup
  few : ts.nExt < 256
  exts : ∀ n : UInt8, Token.ext n ∈ ts.tokens ↔ n.toNat < ts.nExt

/-- The number of ext tokens and the code length of the bits types. -/
def bitsParams : TokenType → Option (Nat × Nat)
  | .bits1 => some (2, 8)
  | .bits2 => some (4, 4)
  | .bits4 => some (16, 2)
  | _ => none

/-- The bits family: every sequence spells one byte and lists ext tokens which are the digits of the
byte. -/
structure BitsFamily (ts : TokenSet) : Prop extends Usable ts where
  params : ∃ len, bitsParams ts.tokenType = some (ts.nExt, len) ∧
    ∀ e ∈ meaning ts, ∃ (b : UInt8) (ds : List UInt8),
      e = ([b], ds.map (fun d => some (Token.ext d))) ∧ ds.length = len ∧
      (∀ d ∈ ds, d.toNat < ts.nExt) ∧ horner ts.nExt (ds.map UInt8.toNat) = b.toNat

/-- The bytes family: no ext tokens, no sequences. -/
structure BytesFamily (ts : TokenSet) : Prop extends Usable ts where
  type : ts.tokenType = .bytes
  noExt : ts.nExt = 0
  noSeq : ts.sequences = []

/-- The byteshuff family: every sequence spells one byte and lists a single-byte token followed by
one or more ext tokens, at most 256 tokens; no two sequences list the same. -/
structure HuffFamily (ts : TokenSet) : Prop extends Usable ts where
  type : ts.tokenType = .bytesHuff
  codes : ∀ e ∈ meaning ts, ∃ (b c : UInt8) (ds : List UInt8), ds ≠ [] ∧
    e = ([b], some (Token.str [c]) :: ds.map (fun d => some (Token.ext d)))
  separate : ((meaning ts).map Prod.snd).Nodup
  short : ∀ e ∈ meaning ts, e.2.length ≤ 256

/-- A token set of one of the families. -/
def Family (ts : TokenSet) : Prop := BitsFamily ts ∨ BytesFamily ts ∨ HuffFamily ts

/-- The tokens written for a segmentation. -/
def tokensOut (ts : TokenSet) (ps : List Piece) : List (Option Token) :=
  (output ts ps).map (ts.tokens[·]?)

/-- There is a decoder that gets the text back from the tokens written, whatever segmentation was
used. -/
def Lossless (ts : TokenSet) : Prop :=
  ∃ decode : List (Option Token) → Bytes,
    ∀ ps text, Spells ts ps text → decode (tokensOut ts ps) = text

end Tokens.Spec
