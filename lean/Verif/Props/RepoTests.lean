import Verif.Model.Processing
import Verif.Model.Chars
import Verif.Model.Json
import Verif.Model.Tokenizer

/-!
# The unit tests of the repository, run on the model

These are tests of the model, not proofs of claims: every unit test in `/repo/src` (apart from the one that
is commented out) computes in the model what it asserts for the program.  Where the kernel would take too
long (`tokenize`, `tokenizeSeq`, `toJson`, `sort`) only the computation is here; the interpreter gives what
the test expects: 2; 3; bits4, 19 and 253; `sortResult`.
-/

namespace Tokens.RepoTests
open Tokens TokenSet

/-- Character tables that are right for ASCII. -/
def ascii : CharTables where
  isAlphabetic c := c.isAlpha
  isUppercase c := c.isUpper
  isLowercase c := c.isLower
  lowerFirst := Char.toLower
  lowerStr := List.map Char.toLower

/-- src/processing.rs:148-168 `test_process`. -/
def processTests : List (List Char × List Char) := [
  (['H', 'e', 'l', 'l', 'o', ',', ' ', 'w', 'o', 'r', 'l', 'd', '!'],
   ['\x14', 'h', 'e', 'l', 'l', 'o', '\x16', ',', ' ', 'w', 'o', 'r', 'l', 'd', '\x16', '!']),
  (['h', 'e', 'l', 'l', 'o', ',', ' ', 'w', 'o', 'r', 'l', 'd', '!'],
   ['h', 'e', 'l', 'l', 'o', '\x16', ',', ' ', 'w', 'o', 'r', 'l', 'd', '\x16', '!']),
  (['H', 'E', 'L', 'L', 'O', ',', ' ', 'w', 'o', 'r', 'l', 'd', '!'],
   ['\x15', 'h', 'e', 'l', 'l', 'o', '\x16', ',', ' ', 'w', 'o', 'r', 'l', 'd', '\x16', '!']),
  (['H', 'e', 'L', 'L', 'o', ',', ' ', 'w', 'o', 'r', 'l', 'd', '!'],
   ['H', 'e', 'L', 'L', 'o', '\x16', ',', ' ', 'w', 'o', 'r', 'l', 'd', '\x16', '!']),
  (['H', 'e', 'l', 'l', 'o', ' ', 'w', 'o', 'r', 'l', 'd', '!'],
   ['\x14', 'h', 'e', 'l', 'l', 'o', '\x16', 'w', 'o', 'r', 'l', 'd', '\x16', '!']),
  (['H', 'e', 'l', 'l', 'o', ' ', ',', ' ', 'w', 'o', 'r', 'l', 'd', '!'],
   ['\x14', 'h', 'e', 'l', 'l', 'o', '\x16', ' ', ',', ' ', 'w', 'o', 'r', 'l', 'd', '\x16', '!']),
  (['H', 'e', 'l', 'l', 'o', ',', ' ', 'w', 'o', 'r', 'l', 'd', ' '],
   ['\x14', 'h', 'e', 'l', 'l', 'o', '\x16', ',', ' ', 'w', 'o', 'r', 'l', 'd', '\x16', ' ']),
  (['H', 'e', 'l', 'l', 'o', ',', ' ', 'w', 'o', 'r', 'l', 'd'],
   ['\x14', 'h', 'e', 'l', 'l', 'o', '\x16', ',', ' ', 'w', 'o', 'r', 'l', 'd', '\x16']),
  (['H', 'e', 'l', 'l', 'o', ',', ' ', 'W', 'o', 'r', 'l', 'd'],
   ['\x14', 'h', 'e', 'l', 'l', 'o', '\x16', ',', ' ', '\x14', 'w', 'o', 'r', 'l', 'd', '\x16']),
  (['H', 'e', 'l', 'l', 'o', ' ', 'W', 'o', 'r', 'l', 'd'],
   ['\x14', 'h', 'e', 'l', 'l', 'o', '\x16', '\x14', 'w', 'o', 'r', 'l', 'd', '\x16']),
  (['H', 'e', 'l', 'l', 'o', ' ', 'W', 'O', 'R', 'L', 'D'],
   ['\x14', 'h', 'e', 'l', 'l', 'o', '\x16', '\x15', 'w', 'o', 'r', 'l', 'd', '\x16'])]

/-- Does the model give `b`? -/
def gives {α : Type} [DecidableEq α] (x : R α) (b : α) : Bool :=
  match x with
  | .ok a => decide (a = b)
  | .error _ => false

example : processTests.all (fun p => gives (Processing.process ascii p.1) p.2) = true := by decide +kernel

/-- src/tokenizer2.rs:281-294 `tokenize`. -/
def tokenize : R Nat := do
  let ts ← newBits1 .raw true
  let ts ← ts.addTokens [[97], [97, 98], [98, 99]]
  let tk ← FragmentTokenizer.new ts
  let st ← tk.processSlice [97, 98, 99] (TokenStats.new ts (some 3))
  .ok st.totalTokens

/-- src/tokenizer2.rs:296-312 `tokenize_seq`. -/
def tokenizeSeq : R Nat := do
  let ts ← newBits4 .raw true
  let ts ← ts.addTokens [[97, 98], [98], [99], [100], [101], [98, 99, 100, 101]]
  let tk ← FragmentTokenizer.new ts
  let st ← tk.processSlice [97, 98, 99, 100, 101] (TokenStats.new ts (some 3))
  .ok st.totalTokens

/-- src/tokenset.rs:441-452 `token_to_json`. -/
example : (Token.ext 127).toJson = .num 127 := by rfl
example : (Token.str [0xb0, 0xff]).toJson = .arr [.num 0xb0, .num 0xff] := by rfl
example : (Token.str [0xd0, 0xb0, 0xd0, 0xb1]).toJson = .str ['а', 'б'] := by rfl

/-- src/tokenset.rs:470-478 `token_set_name`. -/
def name : R Text := do
  let ts ← newBits4 .raw true
  let ts ← ts.addTokens [[97], [98], [99]]
  .ok ts.name

example : gives name ['t', 'o', 'k', 'e', 'n', 's', '1', '9', '_', 'r', 'a', 'w', '_', 'b', 'i', 't', 's', '4'] = true := by
  decide +kernel

/-- src/tokenset.rs:454-468 `token_set_to_json`: the numbers of tokens and sequences, and that it is read. -/
def toJson : R (Text × Nat × Nat) := do
  let ts ← newBits4 .raw true
  let ts ← ts.addTokens [[97], [98], [99]]
  let v ← ts.toJson
  let _ ← TokenSet.fromJson v
  let ty := v.index "type"
  let a := v.index "tokens"
  let b := v.index "sequences"
  let ty ← unwrapR ty.asStr
  let a ← unwrapR a.asArray
  let b ← unwrapR b.asArray
  .ok (ty, a.length, b.length)

/-- src/tokenset.rs:480-512 `sort`. -/
def sort : R TokenSet := do
  let ts ← TokenSet.new 2 .raw .bytesHuff true
  let ts ← ts.addTokens [[98], [97], [99]]
  let ts := ts.addSequence [101] [3, 0]
  let ts := ts.addSequence [100] [2, 3, 1]
  ts.sort

def sortResult : TokenSet :=
  { nExt := 2, tokenType := .bytesHuff, processing := .raw, splitParagraphs := true,
    tokens := [.ext 0, .ext 1, .str [97], .str [98], .str [99]],
    sequences := [⟨[100], [3, 2, 1]⟩, ⟨[101], [2, 0]⟩] }

/-- src/tokenset.rs:514-545 `remove_token`. -/
def remove : R TokenSet := do
  let ts ← TokenSet.new 2 .raw .bytesHuff true
  let ts ← ts.addTokens [[97], [98, 99], [99]]
  let ts := ts.addSequence [100] [2, 0]
  let ts := ts.addSequence [101] [4, 2, 1]
  ts.removeToken 3

def removeResult : TokenSet :=
  { nExt := 2, tokenType := .bytesHuff, processing := .raw, splitParagraphs := true,
    tokens := [.ext 0, .ext 1, .str [97], .str [99]],
    sequences := [⟨[100], [2, 0]⟩, ⟨[101], [3, 2, 1]⟩] }

example : gives remove removeResult = true := by decide +kernel

open Chars in
/-- src/chars/tokenizer.rs:124-146 `test_tokenize`. -/
def charsTokenize : R (Nat × Nat) := do
  let ts := ((CSet.new 2).addCharToken 'A').addCharToken 'B'
  let ts := ts.addEncoding 'C' [3, 0]
  let ts := ts.addEncoding 'D' [3, 0, 1]
  let ts := (ts.addString ['D', 'A']).addString ['A', 'A', 'A']
  let st ← processSlice ts [68, 65, 65, 65]
  .ok (st.total, st.literals)

open Chars in
/-- src/chars/tokenizer.rs:148-161 `test_tokenize_utf8`. -/
def charsTokenizeUtf8 : R (Nat × Nat) := do
  let ts := ((CSet.new 2).addCharToken 'а').addString ['б', 'в']
  let ts := ts.addEncoding 'г' [2, 0]
  let st ← processSlice ts (utf8Encode ['а', 'б', 'в', 'г'])
  .ok (st.total, st.literals)
example : gives charsTokenize (3, 2) = true := by decide +kernel
example : gives charsTokenizeUtf8 (4, 2) = true := by decide +kernel

end Tokens.RepoTests
