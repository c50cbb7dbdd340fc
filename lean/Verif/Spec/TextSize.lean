import Verif.Spec.Words
import Verif.Model.Utf8

/-! Specification for the size of processed texts. -/

namespace Tokens.Spec
open Tokens

/-- The number of bytes of a text in UTF-8. -/
def byteLen (t : List Char) : Nat := (utf8Encode t).length

/-- Over the characters `K`, small letters take at most `num / den` times the bytes of the capitals that
they stand for.  (In today's Unicode tables the worst are letters like `Ⱥ` of two bytes with `ⱥ` of
three, so that `num / den = 3 / 2`.) -/
structure GrowsAtMost (db : CharTables) (K : Char → Prop) (num den : Nat) : Prop where
  first : ∀ c, K c → db.isUppercase c = true → den * byteLen [db.lowerFirst c] ≤ num * byteLen [c]
  word : ∀ w : List Char, (∀ c ∈ w, K c ∧ db.isUppercase c = true) →
    den * byteLen (db.lowerStr w) ≤ num * byteLen w

/-- Over the characters `K`, small letters take as many bytes as the capitals that they stand for. -/
structure KeepsLength (db : CharTables) (K : Char → Prop) : Prop where
  first : ∀ c, K c → db.isUppercase c = true → byteLen [db.lowerFirst c] = byteLen [c]
  word : ∀ w : List Char, (∀ c ∈ w, K c ∧ db.isUppercase c = true) →
    byteLen (db.lowerStr w) = byteLen w

end Tokens.Spec
