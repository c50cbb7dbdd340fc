import Verif.Model.Prelude

/-!
Model of `/repo/src/processing.rs` (`process`, `process_file`).

Texts are lists of Unicode scalar values (`&str::chars()`).  The tables of the Rust standard library
are a parameter.  Simplifications: only readable, valid UTF-8 input is modelled (`lines()` yields `Ok`
each time), writing never fails, and the final flush of the `BufWriter` on drop happens.
-/

namespace Tokens

/-- The functions of the Rust standard library that the code calls on characters. -/
structure CharTables where
  /-- `char::is_alphabetic` -/
  isAlphabetic : Char → Bool
  /-- `char::is_uppercase` -/
  isUppercase : Char → Bool
  /-- `char::is_lowercase` -/
  isLowercase : Char → Bool
  /-- `ch.to_lowercase().next().unwrap()`: the first character of the lowercase mapping -/
  lowerFirst : Char → Char
  /-- `str::to_lowercase` (context dependent: final sigma) -/
  lowerStr : List Char → List Char

namespace Processing
variable (db : CharTables)

/-- src/processing.rs:26-30 `enum CharType`. -/
inductive CharType where
  | letter
  | nonLetter
  | space
  deriving DecidableEq, Repr

/-- src/processing.rs:32-40 `get_char_type`. -/
def getCharType (ch : Char) : CharType :=
  if db.isAlphabetic ch then .letter
  else if ch = ' ' then .space
  else .nonLetter

/-- `'\x14'`, src/processing.rs:51 -/
def chCap : Char := Char.ofNat 0x14
/-- `'\x15'`, src/processing.rs:55 -/
def chUpper : Char := Char.ofNat 0x15
/-- `'\x16'`, src/processing.rs:64 -/
def chEnd : Char := Char.ofNat 0x16

/-- src/processing.rs:42-65 `add_word`. -/
def addWord (out : List Char) (word : List Char) : R (List Char) := do
  rassert (!word.isEmpty)
  match word with
  | [] => .error .unwrapNone
  | first :: rest =>
    let out :=
      if db.isUppercase first then
        if rest.all db.isLowercase then
          out ++ [chCap] ++ [db.lowerFirst first] ++ rest
        else if rest.all db.isUppercase then
          out ++ [chUpper] ++ db.lowerStr word
        else out ++ word
      else out ++ word
    .ok (out ++ [chEnd])

/-- src/processing.rs:67-71 `enum State`. -/
inductive State where
  | word
  | spaceAfterWord
  | nonWord
  deriving DecidableEq, Repr

/-- src/processing.rs:84-120: the loop body; `out`, `state`, `word` are the three local variables. -/
def step (out : List Char) (state : State) (word : List Char) (ch : Char) :
    R (List Char × State × List Char) :=
  match state, getCharType db ch with
  | .nonWord, .letter => .ok (out, .word, word ++ [ch])
  | .nonWord, .space => .ok (out ++ [ch], .nonWord, word)
  | .nonWord, .nonLetter => .ok (out ++ [ch], .nonWord, word)
  | .word, .letter => .ok (out, .word, word ++ [ch])
  | .word, .space => do
    let out ← addWord db out word
    .ok (out, .spaceAfterWord, [])
  | .word, .nonLetter => do
    let out ← addWord db out word
    .ok (out ++ [ch], .nonWord, [])
  | .spaceAfterWord, .letter => .ok (out, .word, word ++ [ch])
  | .spaceAfterWord, .space => .ok (out ++ [' '] ++ [ch], .nonWord, word)
  | .spaceAfterWord, .nonLetter => .ok (out ++ [' '] ++ [ch], .nonWord, word)

/-- src/processing.rs:84-126: the loop and what follows it. -/
def run (out : List Char) (state : State) (word : List Char) : List Char → R (List Char)
  | [] =>
    match state with
    | .word => addWord db out word
    | .spaceAfterWord => .ok (out ++ [' '])
    | .nonWord => .ok out
  | ch :: text => do
    let (out, state, word) ← step db out state word ch
    run out state word text

/-- src/processing.rs:79-129 `process`. -/
def process (text : List Char) : R (List Char) := run db [] .nonWord [] text

/-- `BufRead::lines` on the whole input: cut after every `\n`, drop it, then drop one `\r` at the
end.  `cur` is the line read so far; a last line without `\n` is reported (as it is, only `\n` and
`\r\n` are removed) if it is not empty. -/
def linesFrom (cur : List Char) : List Char → List (List Char)
  | [] => if cur.isEmpty then [] else [cur]
  | ch :: text =>
    if ch = '\n' then
      (if cur.getLast? = some '\r' then cur.dropLast else cur) :: linesFrom [] text
    else linesFrom (cur ++ [ch]) text

/-- `reader.lines()`, src/processing.rs:135. -/
def lines (text : List Char) : List (List Char) := linesFrom [] text

/-- src/processing.rs:135-140: the loop of `process_file`; the result is what has been written. -/
def processLines (written : List Char) : List (List Char) → R (List Char)
  | [] => .ok written
  | line :: rest => do
    let processed ← process db line
    processLines (written ++ processed ++ ['\n']) rest

/-- src/processing.rs:131-143 `process_file`: from the contents of the input to what is written. -/
def processFile (text : List Char) : R (List Char) := processLines db [] (lines text)

end Processing
end Tokens
