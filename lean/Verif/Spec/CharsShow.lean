import Verif.Model.Chars

/-!
Specification of what the text of a character-based token set is about.
-/

namespace Tokens.Spec
open Tokens Chars

/-- The tokens that a list of numbers stands for. -/
def tokensAt (ts : CSet) (enc : List Nat) : List (Option CToken) := enc.map (fun i => ts.tokens[i]?)

/-- The tokens of the encoding of a character, if it has one.  (For a character below 256 the empty list means
that it has none.) -/
def writtenFor (ts : CSet) (c : Char) : Option (List (Option CToken)) :=
  if c.toNat < 256 then (if ts.loEnc c = [] then none else some (tokensAt ts (ts.loEnc c)))
  else (ts.hiEnc c).map (tokensAt ts)

/-- The keys of the map of the characters from 256 up, each once. -/
def KeysOf (ts : CSet) (keys : List Char) : Prop := keys.Nodup ∧ ∀ c, c ∈ keys ↔ (ts.hiEnc c).isSome = true

/-- All encodings list existing tokens. -/
def EncodingsInRange (ts : CSet) : Prop :=
  (∀ c, c.toNat < 256 → ∀ i ∈ ts.loEnc c, i < ts.tokens.length) ∧
  ∀ c enc, ts.hiEnc c = some enc → ∀ i ∈ enc, i < ts.tokens.length

/-- Characters from 256 up only in the map. -/
def HighKeys (ts : CSet) : Prop := ∀ c, (ts.hiEnc c).isSome = true → 256 ≤ c.toNat

end Tokens.Spec
