import Verif.Model.CharsOptimizer
import Verif.Spec.Chars

/-!
Specification for the optimizer over characters (`/repo/src/chars/optimizer.rs`): the tokens a text is written
with, what a character count is, what one round of the loop does.
-/

namespace Tokens.Spec.Chars
open Tokens Tokens.Chars

/-- The encoding of a character, if it has one (an empty entry of the table for characters below 256 means
that there is none). -/
def encOf (ts : CSet) (c : Char) : Option (List Nat) :=
  if c.toNat < 256 then (if ts.loEnc c = [] then none else some (ts.loEnc c)) else ts.hiEnc c

/-- The numbers of the tokens that the pieces are written with. -/
inductive Written (ts : CSet) : List Piece → List Nat → Prop where
  | nil : Written ts [] []
  | tok {ps : List Piece} {w : List Nat} (i : Nat) (h : Written ts ps w) : Written ts (.tok i :: ps) (i :: w)
  | lit {ps : List Piece} {w : List Nat} {c : Char} {e : List Nat} (hc : encOf ts c = some e) (h : Written ts ps w) :
      Written ts (.lit c :: ps) (e ++ w)

/-- The table lists the characters of the samples, each once, in order, with the number of its occurrences. -/
structure CharTable (samples : List Text) (counts : List (Char × Nat)) : Prop where
  sorted : counts.Pairwise (fun a b => a.1 < b.1)
  exact : ∀ c m, (c, m) ∈ counts ↔ c ∈ samples.flatten ∧ m = samples.flatten.count c

/-- How many tokens the characters of a table take with the encodings of the set. -/
def tableCost (ts : CSet) (counts : List (Char × Nat)) : Nat := (counts.map (fun p => encLength ts p.1 * p.2)).sum

/-- The order in which a map of pair counts is traversed: every pair that was seen (a map holds finitely many). -/
def Traverses (order : CStats → List (Nat × Nat)) : Prop :=
  ∀ (st : CStats) (b : Nat), (∀ i j, 0 < st.pairs i j → i < b ∧ j < b) → ∀ i j, (i, j) ∈ order st ↔ 0 < st.pairs i j

/-- No two neighbouring tokens were seen. -/
def NoPairs (st : CStats) : Prop := ∀ i j, st.pairs i j = 0

/-- One round of the optimizer: the text of a pair of neighbours that was seen most often becomes a token; it
was not one before; the samples take fewer tokens then, by at least half the number of occurrences. -/
structure Round (samples : List Text) (ts : CSet) (st : CStats) (ts' : CSet) (st' : CStats) : Prop where
  pair : ∃ (i j : Nat) (t t' : CToken) (s s' : Text), ts.tokens[i]? = some t ∧ t.text = some s ∧
    ts.tokens[j]? = some t' ∧ t'.text = some s' ∧ 0 < st.pairs i j ∧ (∀ a b, st.pairs a b ≤ st.pairs i j) ∧
    ¬ IsToken ts (s ++ s') ∧ ts' = ts.addString (s ++ s') ∧ 2 * st'.total + st.pairs i j ≤ 2 * st.total
  stats : tokenize ts' (samples.map utf8Encode) = .ok st'

/-- Any number of rounds. -/
inductive Rounds (samples : List Text) : Nat → CSet → CStats → CSet → CStats → Prop where
  | none (ts : CSet) (st : CStats) : Rounds samples 0 ts st ts st
  | more {n : Nat} {ts ts' ts'' : CSet} {st st' st'' : CStats} (h : Round samples ts st ts' st')
      (hs : Rounds samples n ts' st' ts'' st'') : Rounds samples (n + 1) ts st ts'' st''

/-- No two tokens have the same text, and no text is empty. -/
structure OwnTexts (ts : CSet) : Prop where
  own : ∀ (i j : Nat) (t t' : CToken) (s : Text), ts.tokens[i]? = some t → ts.tokens[j]? = some t' →
    t.text = some s → t'.text = some s → i = j
  nonempty : ∀ t ∈ ts.tokens, t.text ≠ some []

end Tokens.Spec.Chars
