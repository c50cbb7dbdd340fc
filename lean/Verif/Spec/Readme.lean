import Verif.Spec.Words

/-!
The decoder that `/repo/README.md` ("Processing") describes:

> `end-of-word` is added after every word whether it is followed by a space or a punctuation sign.
> When decoding, if `end-of-word` appears between two letters, it can be replaced by a space.
> Otherwise it's dropped.  `capitalized` and `all-caps` markers are added _before_ the word.  The
> first capitalizes the first letter, the second capitalizes all letters.

The program itself has no decoder.
-/

namespace Tokens.Spec
open Tokens

/-- What is to be done to the letters that follow. -/
inductive Caps where
  | asIs
  | first
  | all
  deriving DecidableEq, Repr

/-- A word, possibly with a case marker before it, starts here. -/
def wordStarts (db : CharTables) : List Char → Bool
  | [] => false
  | c :: _ => c = Char.ofNat 0x14 || c = Char.ofNat 0x15 || db.isAlphabetic c

/-- The decoder of the README; `up` capitalizes one letter. -/
def readmeDecode (db : CharTables) (up : Char → Char) (m : Caps) : List Char → List Char
  | [] => []
  | c :: t =>
    if c = Char.ofNat 0x14 then readmeDecode db up .first t
    else if c = Char.ofNat 0x15 then readmeDecode db up .all t
    else if c = Char.ofNat 0x16 then
      if wordStarts db t then ' ' :: readmeDecode db up .asIs t else readmeDecode db up .asIs t
    else
      match m with
      | .asIs => c :: readmeDecode db up .asIs t
      | .first => up c :: readmeDecode db up .asIs t
      | .all => up c :: readmeDecode db up .all t

/-- Characters whose capitals are restored by `up`: none is a marker, and lowercasing a capital letter,
alone or in a word of capitals, makes one letter that `up` turns back. -/
structure Restores (db : CharTables) (K : Char → Prop) (up : Char → Char) : Prop where
  noMarker : ¬ K (Char.ofNat 0x14) ∧ ¬ K (Char.ofNat 0x15) ∧ ¬ K (Char.ofNat 0x16)
  back : ∀ a, K a → db.isUppercase a = true → up (db.lowerFirst a) = a
  lowNoMarker : ∀ a, K a → db.isUppercase a = true → db.lowerFirst a ≠ Char.ofNat 0x14 ∧
    db.lowerFirst a ≠ Char.ofNat 0x15 ∧ db.lowerFirst a ≠ Char.ofNat 0x16
  word : ∀ w : List Char, (∀ c ∈ w, K c ∧ db.isUppercase c = true) →
    db.lowerStr w = w.map db.lowerFirst

/-- The words, separated by one space each. -/
def spaced : List (List Char) → List Char
  | [] => []
  | [w] => w
  | w :: v :: l => w ++ ' ' :: spaced (v :: l)

/-- A word: letters only, and at least one. -/
def IsWord (db : CharTables) (w : List Char) : Prop := w ≠ [] ∧ ∀ c ∈ w, db.isAlphabetic c = true

end Tokens.Spec
