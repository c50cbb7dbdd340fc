import Verif.Model.CharsFile
import Verif.Model.CountLog

/-!
Model of the `Display` implementations of `/repo/src/chars/tokens.rs` (not part of the program) and of
`format_token` in `/repo/src/optimizer.rs` (not part of the program).
-/

namespace Tokens
namespace Chars
open Show Main

/-- src/chars/tokens.rs:46-53 `Display for CharsToken`. -/
def CToken.display (plain : Char → Bool) : CToken → Text
  | .ext n => Nat.toDigits 10 n
  | .char c => debugCharLit plain c
  | .str s => debugStr plain s

/-- src/chars/tokens.rs:212-214: one line for each token; `i` is the number of the first. -/
def tokenLines (plain : Char → Bool) (i : Nat) : List CToken → Text
  | [] => []
  | t :: ts => Nat.toDigits 10 i ++ [' ', ' '] ++ t.display plain ++ ['\n'] ++ tokenLines plain (i + 1) ts

/-- src/chars/tokens.rs:222-224, 234-236: the tokens of an encoding, each after a space. -/
def encodingText (plain : Char → Bool) (tokens : List CToken) : List Nat → R Text
  | [] => .ok []
  | i :: is => do
    let t ← getR tokens i
    let rest ← encodingText plain tokens is
    .ok (' ' :: t.display plain ++ rest)

/-- src/chars/tokens.rs:221-225, 233-237: the line of a character. -/
def encodingLine (plain : Char → Bool) (tokens : List CToken) (c : Char) (enc : List Nat) : R Text := do
  let text ← encodingText plain tokens enc
  .ok (debugCharLit plain c ++ [' '] ++ text ++ ['\n'])

/-- src/chars/tokens.rs:218-227: the lines of the characters below 256 that have an encoding.  (The first
argument is the list of characters to come; `char::from_u32` gives a character for every number below 256.) -/
def loLines (plain : Char → Bool) (ts : CSet) : List Char → R Text
  | [] => .ok []
  | c :: cs =>
    if (ts.loEnc c).isEmpty then loLines plain ts cs
    else do
      let line ← encodingLine plain ts.tokens c (ts.loEnc c)
      let rest ← loLines plain ts cs
      .ok (line ++ rest)

/-- src/chars/tokens.rs:232-238: the lines of the other characters. -/
def hiLines (plain : Char → Bool) (ts : CSet) : List Char → R Text
  | [] => .ok []
  | c :: cs => do
    let enc ← unwrapR (ts.hiEnc c)
    let line ← encodingLine plain ts.tokens c enc
    let rest ← hiLines plain ts cs
    .ok (line ++ rest)

/-- src/chars/tokens.rs:210-242 `Display for CharsTokenSet`; `keys` are the keys of the map `hi_chars_enc`, in
the order in which it is iterated. -/
def CSet.display (plain : Char → Bool) (ts : CSet) (keys : List Char) : R Text := do
  let lo ← loLines plain ts loChars
  let hi ← hiLines plain ts (keys.mergeSort (fun a b => decide (a.toNat ≤ b.toNat)))
  .ok (tokenLines plain 0 ts.tokens ++ ['\n'] ++ lo ++ hi)

end Chars

namespace Old
open Show

/-- src/optimizer.rs:13-18 `format_token`: as `show_bytes`. -/
def formatToken (plain : Char → Bool) (s : Bytes) : Text := showBytes plain s

end Old
end Tokens
