import Verif.Model.Utf8

/-!
Specification of what `count_chars` prints.
-/

namespace Tokens.Spec
open Tokens

/-- After `p` characters of the text there is the end of a line. -/
def LineEnd (text : Text) (p : Nat) : Prop := 0 < p ∧ (p = text.length ∨ text[p - 1]? = some '\n')

/-- The numbers of characters that are printed while counting: for every billion, the first end of a line
in it. -/
structure BillionMarks (text : Text) (ns : List Nat) : Prop where
  sorted : ns.Pairwise (· < ·)
  exact_ : ∀ n, n ∈ ns ↔ LineEnd text n ∧ 1000000000 ≤ n ∧
    ∀ p < n, LineEnd text p → p / 1000000000 < n / 1000000000

/-- The characters of the text below 256, each of them once, in order. -/
structure LowChars (text : Text) (cs : List Char) : Prop where
  sorted : cs.Pairwise (fun a b => a.toNat < b.toNat)
  exact_ : ∀ c, c ∈ cs ↔ c ∈ text ∧ c.toNat < 256

/-- The character reported as the largest: the largest of the text, if one of them is 256 or above;
otherwise the character 0 (see C44). -/
def ReportedMax (text : Text) (m : Char) : Prop :=
  ((∃ c ∈ text, 256 ≤ c.toNat) ∧ m ∈ text ∧ ∀ c ∈ text, c.toNat ≤ m.toNat) ∨
  ((∀ c ∈ text, c.toNat < 256) ∧ m = Char.ofNat 0)

end Tokens.Spec
