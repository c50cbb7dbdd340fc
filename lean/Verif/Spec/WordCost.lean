import Verif.Spec.Words
import Verif.Spec.Segmentation
import Verif.Model.Utf8

/-!
Specification for the README's promise that a word is one token: what is left of a processed text if the
words are taken out, and how the words are written.
-/

namespace Tokens.Spec
open Tokens

/-- The words of a text. -/
def wordsOf : List Item → List (List Char)
  | [] => []
  | .word w :: l => w :: wordsOf l
  | .other _ :: l => wordsOf l

/-- The characters outside the words, without the single spaces between two words. -/
def betweenWords : List Item → List Char
  | [] => []
  | .word _ :: .other ' ' :: .word v :: l => betweenWords (.word v :: l)
  | .word _ :: l => betweenWords l
  | .other c :: l => c :: betweenWords l

/-- A word with a capital first letter, the others small. -/
def capitalized (db : CharTables) : List Char → Bool
  | [] => false
  | c :: r => db.isUppercase c && r.all db.isLowercase

/-- A word of capital letters. -/
def allCaps (db : CharTables) (w : List Char) : Bool := !w.isEmpty && w.all db.isUppercase

/-- The word in small letters, if it is capitalized or all in capitals. -/
def smallWord (db : CharTables) (w : List Char) : List Char :=
  match w with
  | [] => []
  | c :: r =>
    if capitalized db (c :: r) then db.lowerFirst c :: r
    else if allCaps db (c :: r) then db.lowerStr (c :: r)
    else c :: r

/-- 1 for a word that needs a marker for its capitals, 0 for others. -/
def markers (db : CharTables) (w : List Char) : Nat := if capitalized db w || allCaps db w then 1 else 0

end Tokens.Spec
