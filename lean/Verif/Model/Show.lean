import Verif.Model.Json

/-!
Model of what the optimizer prints about a change of the token set: `show_bytes` and `Display for Token`
(`/repo/src/tokenset.rs:58-63, 103-110`) and `show_tokenset_diff` (`/repo/src/optimize.rs:26-49`), with
the parts of Rust's formatting they use.
-/

namespace Tokens
namespace Show

/-- `char::escape_debug` as used by `Debug for str`.  `plain` is the table of the standard library that
says which characters are printed as they are (printable and no grapheme extender); it is a parameter. -/
def debugChar (plain : Char → Bool) (c : Char) : Text :=
  if c = Char.ofNat 0 then ['\\', '0']
  else if c = '\t' then ['\\', 't']
  else if c = '\r' then ['\\', 'r']
  else if c = '\n' then ['\\', 'n']
  else if c = '\\' then ['\\', '\\']
  else if c = '"' then ['\\', '"']
  else if plain c then [c]
  else ['\\', 'u', '{'] ++ Nat.toDigits 16 c.toNat ++ ['}']

/-- `format!("{:?}", s)` of a string. -/
def debugStr (plain : Char → Bool) (s : Text) : Text := '"' :: s.flatMap (debugChar plain) ++ ['"']

/-- `[String]::join`. -/
def joined (sep : Text) : List Text → Text
  | [] => []
  | [x] => x
  | x :: y :: l => x ++ sep ++ joined sep (y :: l)

/-- `format!("{:?}", bytes)` of a byte slice. -/
def debugBytes (b : Bytes) : Text := '[' :: joined [',', ' '] (b.map (fun x => Nat.toDigits 10 x.toNat)) ++ [']']

/-- src/tokenset.rs:58-63 `show_bytes`. -/
def showBytes (plain : Char → Bool) (b : Bytes) : Text :=
  match utf8Decode b with
  | some s => debugStr plain s
  | none => debugBytes b

/-- src/tokenset.rs:103-110 `Display for Token`. -/
def showToken (plain : Char → Bool) : Token → Text
  | .ext x => Nat.toDigits 10 x.toNat
  | .str s => showBytes plain s

/-- `Ord for String`: strings are compared byte by byte. -/
def strLe (a b : Text) : Bool := decide (utf8Encode a ≤ utf8Encode b)

/-- src/optimize.rs:26-49 `show_tokenset_diff`, as what it may return: `HashSet::difference` (lines
37-38, 42-43) gives each token of one set that is not in the other once, in an unknown order; the texts
are then sorted. -/
def ShowDiff (plain : Char → Bool) (before after : TokenSet) (line : Text) : Prop :=
  ∃ removed added : List Token,
    removed.Nodup ∧ (∀ t, t ∈ removed ↔ t ∈ before.tokens ∧ t ∉ after.tokens) ∧
    added.Nodup ∧ (∀ t, t ∈ added ↔ t ∈ after.tokens ∧ t ∉ before.tokens) ∧
    line = joined [' '] ((removed.map (showToken plain)).mergeSort strLe) ++ [' ', '-', '>', ' '] ++
      joined [' '] ((added.map (showToken plain)).mergeSort strLe)

end Show
end Tokens
