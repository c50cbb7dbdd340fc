import Verif.Spec.Saved
import Verif.Spec.Family
import Verif.Model.Json
import Mathlib.Data.List.Forall2

/-!
Specification of what a token set file means: which JSON values stand for which token sets.
-/

namespace Tokens.Spec
open Tokens

/-- The byte that a number in a file stands for: a 64-bit integer, modulo 256. -/
def ByteNumber (j : Json) (b : UInt8) : Prop :=
  ∃ n : Int, j = .num n ∧ -2 ^ 63 ≤ n ∧ n < 2 ^ 63 ∧ (b.toNat : Int) = n % 256

/-- The byte string that an element of a file stands for: the UTF-8 encoding of a string, or the bytes
listed in an array. -/
inductive ElementText : Json → Bytes → Prop where
  | str (s : Text) : ElementText (.str s) (utf8Encode s)
  | arr {l : List Json} {b : Bytes} (h : List.Forall₂ ByteNumber l b) : ElementText (.arr l) b

/-- The token that an element of a file stands for: a byte string, or the ext token with a number
(64 bits without sign, modulo 256). -/
inductive TokenOf : Json → Token → Prop where
  | str {j : Json} {s : Bytes} (h : ElementText j s) : TokenOf j (.str s)
  | ext {n : Nat} {b : UInt8} (h : n < 2 ^ 64) (hb : b.toNat = n % 256) : TokenOf (.num n) (.ext b)

/-- What the members `type` and `fallback_bits` say about the type; the names `fallback_bits` and
`all_tokens` come from older versions. -/
def TypeOf (v : Json) (ty : TokenType) : Prop :=
  ∃ name : String, v.get? "type" = some (.str name.toList) ∧
    ((name, ty) ∈ [("bits1", TokenType.bits1), ("bits2", .bits2), ("bits4", .bits4), ("bytes", .bytes),
        ("byteshuff", .bytesHuff), ("all_tokens", .bytes)] ∨
      name = "fallback_bits" ∧ ∃ n : Int, v.get? "fallback_bits" = some (.num n) ∧
        (n, ty) ∈ [((1 : Int), TokenType.bits1), (2, .bits2), (4, .bits4)])

/-- What the member `processing` says. -/
def ProcessingOf (v : Json) (p : Processing) : Prop :=
  ∃ name : String, v.get? "processing" = some (.str name.toList) ∧
    (name, p) ∈ [("raw", Processing.raw), ("capswords", .capsWords)]

/-- The `len` digits of a number in base `n`, the most significant first. -/
def digitsOf (n : Nat) : Nat → Nat → List Nat
  | 0, _ => []
  | len + 1, c => digitsOf n len (c / n) ++ [c % n]

/-- The sequences that a type brings with it: for the bits types, the digits of every byte. -/
def builtIn (ty : TokenType) : List Sequence :=
  match bitsParams ty with
  | some (n, len) => (List.range 256).map (fun c => ⟨[UInt8.ofNat c], digitsOf n len c⟩)
  | none => []

/-- The element is the `i`-th of the tokens, and none of the tokens before it. -/
def PlaceOf (tokens : List Token) (j : Json) (i : Nat) : Prop :=
  ∃ t, TokenOf j t ∧ tokens[i]? = some t ∧ ∀ k < i, tokens[k]? ≠ some t

/-- The sequence that a member of `sequences` stands for. -/
def SequenceOf (tokens : List Token) (j : Json) (q : Sequence) : Prop :=
  ∃ (s : Json) (l : List Json), j.get? "string" = some s ∧ j.get? "tokens" = some (.arr l) ∧
    ElementText s q.string ∧ List.Forall₂ (PlaceOf tokens) l q.tokens

/-- The value stands for the set: the set has as many ext tokens as there are numbers in `tokens` (fewer
than 256, and the right number for the type), numbered from 0 and in front, then the strings, which are
not empty, in their order.  Type, processing and paragraph flag are those named.  The sequences are those
that the type brings with it, without those for a string that is a token, followed by those listed. -/
structure LoadedFrom (v : Json) (ts : TokenSet) : Prop where
  listed : ∃ toks, v.get? "tokens" = some (.arr toks) ∧ ts.nExt = (toks.filter Json.isNumber).length ∧
    (∀ j ∈ toks, j.isNumber = true → ∃ n : Nat, n < 2 ^ 64 ∧ j = .num n) ∧
    List.Forall₂ ElementText (toks.filter (fun j => !j.isNumber)) (strTokens ts)
  order : ts.tokens =
    (List.range ts.nExt).map (fun i => Token.ext (UInt8.ofNat i)) ++ (strTokens ts).map Token.str
  few : ts.nExt < 256
  required : ∀ n, requiredExts ts.tokenType = some n → ts.nExt = n
  nonempty : ∀ s ∈ strTokens ts, s ≠ []
  type : TypeOf v ts.tokenType
  processing : ProcessingOf v ts.processing
  split : v.get? "split_paragraph" = some (.bool ts.splitParagraphs) ∨
    v.get? "split_paragraph" = none ∧ ts.splitParagraphs = false
  sequences : ∃ listed, ts.sequences =
      (builtIn ts.tokenType).filter (fun q => decide (q.string ∉ strTokens ts)) ++ listed ∧
    (v.get? "sequences" = none ∧ listed = [] ∨
      ∃ l, v.get? "sequences" = some (.arr l) ∧ List.Forall₂ (SequenceOf ts.tokens) l listed)

end Tokens.Spec
