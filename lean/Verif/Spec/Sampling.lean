import Verif.Model.Prelude

/-!
Specification of the ways data may be cut into samples, in terms of byte strings only.
-/

namespace Tokens.Spec
open Tokens

/-- Position `p` is just after a blank line, i.e. after two newline bytes. -/
def BlankEnd (data : Bytes) (p : Nat) : Prop :=
  2 ≤ p ∧ data[p - 2]? = some 10 ∧ data[p - 1]? = some 10

/-- `p` is the last position in `(lo, hi]` that is just after a blank line. -/
def LastBlankEnd (data : Bytes) (lo hi p : Nat) : Prop :=
  lo < p ∧ p ≤ hi ∧ BlankEnd data p ∧ ∀ q, lo < q → q ≤ hi → BlankEnd data q → q ≤ p

/-- Where a sample that starts at `start` must stop, for windows of `size` bytes: at the end of the
data if the window reaches it, otherwise at the last position of the window that is just after a
blank line, otherwise after `size` bytes. -/
def GoodCut (data : Bytes) (size start stop : Nat) : Prop :=
  (data.length ≤ start + size ∧ stop = data.length) ∨
  (start + size < data.length ∧ LastBlankEnd data start (start + size) stop) ∨
  (start + size < data.length ∧ (∀ q, start < q → q ≤ start + size → ¬ BlankEnd data q) ∧
    stop = start + size)

/-- Where a sample made of the `w` bytes after position `start` must stop: at the last position that is
just after a blank line lying inside these bytes, otherwise after all of them. -/
def WindowCut (data : Bytes) (start w stop : Nat) : Prop :=
  LastBlankEnd data (start + 1) (start + w) stop ∨
  ((∀ q, start + 2 ≤ q → q ≤ start + w → ¬ BlankEnd data q) ∧ stop = start + w)

/-- A byte string contains an inner paragraph boundary: a blank line followed by a byte that is not
a newline. -/
def HasInnerBreak (p : Bytes) : Prop := ∃ u x v, p = u ++ [10, 10] ++ x :: v ∧ x ≠ 10

/-- `paras` are the paragraphs of `file`: non-empty pieces that concatenate to it, each but the last
ends with a blank line, each but the first starts with a byte that is not a newline, and none has a
paragraph boundary inside. -/
structure Paragraphs (file : Bytes) (paras : List Bytes) : Prop where
  concat : paras.flatten = file
  nonempty : ∀ p ∈ paras, p ≠ []
  ends : ∀ p ∈ paras.dropLast, [10, 10] <:+ p
  starts : ∀ p ∈ paras.tail, p.head? ≠ some 10
  inner : ∀ p ∈ paras, ¬ HasInnerBreak p

end Tokens.Spec
