import Verif.Model.Processing

/-!
Specification of the word processing of `/repo/src/processing.rs:73-78` (the documentation comment),
independent of the state machine that implements it.
-/

namespace Tokens.Spec
open Tokens

/-- A text is a list of words and of characters outside words. -/
inductive Item where
  | word (w : List Char)
  | other (c : Char)
  deriving DecidableEq, Repr

/-- The text that a list of items stands for. -/
def textOf : List Item → List Char
  | [] => []
  | .word w :: l => w ++ textOf l
  | .other c :: l => c :: textOf l

/-- The items are the maximal runs of letters and the characters between them. -/
def Maximal (db : CharTables) : List Item → Prop
  | [] => True
  | .word w :: l =>
    w ≠ [] ∧ (∀ c ∈ w, db.isAlphabetic c = true) ∧ (∀ v l', l ≠ .word v :: l') ∧ Maximal db l
  | .other c :: l => db.isAlphabetic c = false ∧ Maximal db l

/-- The replacement of one word, without the end marker: rules 3 and 4 of the documentation. -/
def caseMarked (db : CharTables) : List Char → List Char
  | [] => []
  | first :: rest =>
    if db.isUppercase first = true ∧ (∀ c ∈ rest, db.isLowercase c = true) then
      Char.ofNat 0x14 :: db.lowerFirst first :: rest
    else if db.isUppercase first = true ∧ (∀ c ∈ rest, db.isUppercase c = true) then
      Char.ofNat 0x15 :: db.lowerStr (first :: rest)
    else first :: rest

/-- The documented rewriting: every word is case-marked and followed by `\x16` (rule 1), a single
space between two words is dropped (rule 2), everything else is copied. -/
def rewritten (db : CharTables) : List Item → List Char
  | [] => []
  | .word w :: .other ' ' :: .word v :: l =>
    caseMarked db w ++ [Char.ofNat 0x16] ++ rewritten db (.word v :: l)
  | .word w :: l => caseMarked db w ++ [Char.ofNat 0x16] ++ rewritten db l
  | .other c :: l => c :: rewritten db l

/-- A class of characters on which the tables make case changes one-to-one: it has none of the three
markers, lowercasing the first letter of a capitalised word and a whole uppercase word loses nothing
and makes no end marker. -/
structure OneToOne (db : CharTables) (K : Char → Prop) : Prop where
  noMarker : ¬ K (Char.ofNat 0x14) ∧ ¬ K (Char.ofNat 0x15) ∧ ¬ K (Char.ofNat 0x16)
  first : ∀ a b, K a → K b → db.isUppercase a = true → db.isUppercase b = true →
    db.lowerFirst a = db.lowerFirst b → a = b
  firstNoEnd : ∀ a, K a → db.lowerFirst a ≠ Char.ofNat 0x16
  word : ∀ v w : List Char, (∀ c ∈ v, K c ∧ db.isUppercase c = true) →
    (∀ c ∈ w, K c ∧ db.isUppercase c = true) → db.lowerStr v = db.lowerStr w → v = w
  wordNoEnd : ∀ v : List Char, (∀ c ∈ v, K c) → Char.ofNat 0x16 ∉ db.lowerStr v

/-- ASCII characters. -/
def Ascii (c : Char) : Prop := c.toNat < 128

/-- The tables are right for ASCII: letters are `A-Z` and `a-z`, and lowercasing maps `A-Z` to `a-z`
and leaves the rest alone.  The tables of the Rust standard library are. -/
structure AsciiTables (db : CharTables) : Prop where
  alphabetic : ∀ c, Ascii c → db.isAlphabetic c = c.isAlpha
  upper : ∀ c, Ascii c → db.isUppercase c = c.isUpper
  lower : ∀ c, Ascii c → db.isLowercase c = c.isLower
  lowerFirst : ∀ c, Ascii c → db.lowerFirst c = c.toLower
  lowerStr : ∀ w : List Char, (∀ c ∈ w, Ascii c) → db.lowerStr w = w.map Char.toLower

/-- Tables that are right for ASCII and know no other letters (used for examples). -/
def asciiOnly : CharTables where
  isAlphabetic := Char.isAlpha
  isUppercase := Char.isUpper
  isLowercase := Char.isLower
  lowerFirst := Char.toLower
  lowerStr := List.map Char.toLower

/-- The text with Windows line ends replaced by Unix ones. -/
def dropCR : List Char → List Char
  | '\r' :: '\n' :: t => '\n' :: dropCR t
  | c :: t => c :: dropCR t
  | [] => []

/-- The text with a newline at the end, unless it is empty or already has one. -/
def finalNewline (t : List Char) : List Char :=
  if t = [] ∨ t.getLast? = some '\n' then t else t ++ ['\n']

end Tokens.Spec
