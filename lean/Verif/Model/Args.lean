import Verif.Model.Disk

/-!
The command line: `Args::parse()` of clap 4 for the `Args` and `Command` of src/main.rs:247-311, and
`main`, src/main.rs:313-348, that hands the values over.

Simplified: the arguments are Unicode text (an argument that is not is refused by clap).  A command line
for which clap prints help or an error and leaves the program is `none`; what it prints is not modelled.

clap is read as follows (clap_builder, `Parser::get_matches_with`, for options that take one value, with
none of the settings that allow hyphens, abbreviations, positional arguments or repetition).
-/

namespace Tokens
namespace Args
open Disk

/-- The subcommands of src/main.rs:253-311. -/
inductive Sub where
  | process | countChars | convertTokens | optimize
  deriving DecidableEq

/-- The fields of the subcommands, src/main.rs:255-310. -/
inductive Id where
  | data | output | processedData | inputTokens | tokensDir | processing | type | ntokens | minDataSize
  deriving DecidableEq

/-- src/main.rs:253-311: the names of the subcommands, as derived by clap (kebab case). -/
def subcommand (name : Text) : Option Sub :=
  if name = "process".toList then some .process
  else if name = "count-chars".toList then some .countChars
  else if name = "convert-tokens".toList then some .convertTokens
  else if name = "optimize".toList then some .optimize
  else none

/-- src/main.rs:255-310: the long options of a subcommand (kebab case of the field, or its `id`). -/
def longs : Sub → List (Text × Id)
  | .process => [("data".toList, .data), ("output".toList, .output)]
  | .countChars => [("data".toList, .data)]
  | .convertTokens => [("data".toList, .data), ("processed-data".toList, .processedData),
      ("input-tokens".toList, .inputTokens), ("tokens-dir".toList, .tokensDir)]
  | .optimize => [("data".toList, .data), ("processed-data".toList, .processedData),
      ("tokens-dir".toList, .tokensDir), ("processing".toList, .processing), ("type".toList, .type),
      ("ntokens".toList, .ntokens), ("input-tokens".toList, .inputTokens),
      ("min-data-size".toList, .minDataSize)]

/-- src/main.rs:255-310: the short options of a subcommand (first letter of the field). -/
def shorts : Sub → List (Char × Id)
  | .process => [('d', .data), ('o', .output)]
  | .countChars => [('d', .data)]
  | .convertTokens => [('d', .data), ('i', .inputTokens), ('t', .tokensDir)]
  | .optimize => [('d', .data), ('t', .tokensDir), ('p', .processing), ('n', .ntokens), ('i', .inputTokens)]

/-- clap_lex `ParsedArg::to_long`: the text after `--`, split at the first `=`. -/
def splitEq : Text → Text × Option Text
  | [] => ([], none)
  | c :: cs =>
    if c = '=' then ([], some cs)
    else ((c :: (splitEq cs).1), (splitEq cs).2)

/-- `Parser::parse_short_arg`: the text after the letter.  Nothing means that the value follows. -/
def attached : Text → Option Text
  | [] => none
  | '=' :: v => some v
  | v => some v

/-- `Parser::get_matches_with` for a subcommand: the arguments that are left, the option that waits for
its value, the values found so far.  `--help` and `-h` are not in the tables: `none`. -/
def loop (c : Sub) : List Text → Option Id → List (Id × Text) → Option (List (Id × Text))
  | [], none, acc => some acc
  | [], some _, _ => none
  | a :: as, pending, acc =>
    match a with
    | ['-', '-'] => if as.isEmpty && pending.isNone then some acc else none
    | '-' :: '-' :: body =>
      match pending, (longs c).lookup (splitEq body).1 with
      | none, some id =>
        if (acc.map Prod.fst).contains id then none
        else match (splitEq body).2 with
          | none => loop c as (some id) acc
          | some v => loop c as none (acc ++ [(id, v)])
      | _, _ => none
    | '-' :: ch :: rest =>
      match pending, (shorts c).lookup ch with
      | none, some id =>
        if (acc.map Prod.fst).contains id then none
        else match attached rest with
          | none => loop c as (some id) acc
          | some v => loop c as none (acc ++ [(id, v)])
      | _, _ => none
    | v =>
      match pending with
      | some id => loop c as none (acc ++ [(id, v)])
      | none => none

/-- `usize::from_str`, digits. -/
def parseDigits (acc : Nat) : Text → Option Nat
  | [] => some acc
  | c :: cs => if c.isDigit then parseDigits (acc * 10 + (c.toNat - 48)) cs else none

/-- `usize::from_str`. -/
def parseUsize (v : Text) : Option Nat :=
  let ds := match v with
    | '+' :: rest => rest
    | v => v
  if ds.isEmpty then none
  else match parseDigits 0 ds with
    | some n => if n < 2 ^ 64 then some n else none
    | none => none

/-- `ValueEnum` of src/processing.rs:6-11 (kebab case). -/
def parseProcessing (v : Text) : Option Processing :=
  if v = "raw".toList then some .raw
  else if v = "caps-words".toList then some .capsWords
  else none

/-- `ValueEnum` of src/tokenset.rs:9-23 (kebab case). -/
def parseType (v : Text) : Option TokenType :=
  if v = "bits1".toList then some .bits1
  else if v = "bits2".toList then some .bits2
  else if v = "bits4".toList then some .bits4
  else if v = "bytes".toList then some .bytes
  else if v = "bytes-huff".toList then some .bytesHuff
  else none

/-- An optional value: absent, or present and well formed. -/
def optional {α : Type} (parse : Text → Option α) : Option Text → Option (Option α)
  | none => some none
  | some v => (parse v).map some

/-- src/main.rs:253-311 and 313-348: the fields of the subcommand from the values found (a required one
that is missing, or a malformed one, is refused) and the command they make. -/
def build (c : Sub) (vals : List (Id × Text)) : Option Command :=
  let get := fun id => vals.lookup id
  match c with
  | .process => do
    let data ← get .data
    let output ← get .output
    some (.process data output)
  | .countChars => do
    let data ← get .data
    some (.countChars data)
  | .convertTokens => do
    let data ← get .data
    let inputTokens ← get .inputTokens
    let tokensDir ← get .tokensDir
    some (.convert data (get .processedData) inputTokens tokensDir)
  | .optimize => do
    let data ← get .data
    let tokensDir ← get .tokensDir
    let processing ← get .processing >>= parseProcessing
    let type ← get .type >>= parseType
    let ntokens ← get .ntokens >>= parseUsize
    let minSize ← optional parseUsize (get .minDataSize)
    some (.optimize data (get .processedData) tokensDir processing type ntokens (get .inputTokens) minSize)

/-- `Args::parse()`: the command for the arguments (without the name of the program), if they are
accepted. -/
def parse : List Text → Option Command
  | [] => none
  | name :: args => do
    let c ← subcommand name
    let vals ← loop c args none []
    build c vals

/-- src/main.rs:313-348 `main`: the program is called with these arguments; its result (`none` if clap
leaves the program) and the files it writes. -/
inductive Program (m : Main.Machine) (d : Files) (args : List Text) :
    Option (R Unit) → List (Text × Bytes) → Prop where
  | refused (h : parse args = none) : Program m d args none []
  | run {cmd r ws} (h : parse args = some cmd) (he : Exec m d cmd (r, ws)) : Program m d args (some r) ws

end Args
end Tokens
