import Verif.Model.Disk
import Mathlib.Data.Nat.Digits.Defs

/-!
What command lines mean, without a parser: an option and its value may be written in several ways, the
options come in any order, and each at most once.  Written from `README.md`, the `#[arg]` lines of
src/main.rs and clap's documentation.
-/

namespace Tokens
namespace Spec
open Disk

/-- The options: the name after `--`, and the letter after `-` if there is one. -/
structure Opt where
  long : Text
  short : Option Char

def Opt.data : Opt := ⟨"data".toList, some 'd'⟩
def Opt.output : Opt := ⟨"output".toList, some 'o'⟩
def Opt.processedData : Opt := ⟨"processed-data".toList, none⟩
def Opt.inputTokens : Opt := ⟨"input-tokens".toList, some 'i'⟩
def Opt.tokensDir : Opt := ⟨"tokens-dir".toList, some 't'⟩
def Opt.processing : Opt := ⟨"processing".toList, some 'p'⟩
def Opt.type : Opt := ⟨"type".toList, none⟩
def Opt.ntokens : Opt := ⟨"ntokens".toList, some 'n'⟩
def Opt.minDataSize : Opt := ⟨"min-data-size".toList, none⟩

/-- A value that can follow its option as an argument of its own: it does not look like an option. -/
def Standalone (v : Text) : Prop := v.head? ≠ some '-' ∨ v = ['-']

/-- The ways to write an option with its value. -/
inductive Written (o : Opt) (v : Text) : List Text → Prop where
  /-- `--data=file` -/
  | longEq : Written o v ["--".toList ++ o.long ++ '=' :: v]
  /-- `--data file` -/
  | long (h : Standalone v) : Written o v ["--".toList ++ o.long, v]
  /-- `-d=file` -/
  | shortEq {c} (hc : o.short = some c) : Written o v ['-' :: c :: '=' :: v]
  /-- `-dfile` -/
  | shortGlued {c} (hc : o.short = some c) (hne : v ≠ []) (heq : v.head? ≠ some '=') :
      Written o v ['-' :: c :: v]
  /-- `-d file` -/
  | short {c} (hc : o.short = some c) (h : Standalone v) : Written o v [['-', c], v]

/-- One option on the command line: the option, its value, the arguments it is written with. -/
structure Setting where
  opt : Opt
  value : Text
  args : List Text

/-- The arguments are those of these settings, one after the other, perhaps with `--` at the end; the
settings are of the given options and no option is repeated. -/
structure Line (opts : List Opt) (ss : List Setting) (args : List Text) : Prop where
  args_eq : args = ss.flatMap (·.args) ∨ args = ss.flatMap (·.args) ++ ["--".toList]
  written : ∀ s ∈ ss, s.opt ∈ opts ∧ Written s.opt s.value s.args
  once : (ss.map (·.opt)).Nodup

/-- The option has this value. -/
def Given (ss : List Setting) (o : Opt) (v : Text) : Prop := ∃ s ∈ ss, s.opt = o ∧ s.value = v

/-- The optional option has this value, or is not there. -/
def Maybe (ss : List Setting) (o : Opt) (v : Option Text) : Prop :=
  (∃ x, v = some x ∧ Given ss o x) ∨ (v = none ∧ ∀ s ∈ ss, s.opt ≠ o)

/-- A number of at most 64 bits in decimal, perhaps with `+` before it. -/
def Number (v : Text) (n : Nat) : Prop :=
  ∃ ds : List Nat, ds ≠ [] ∧ (∀ d ∈ ds, d < 10) ∧ n = Nat.ofDigits 10 ds.reverse ∧ n < 2 ^ 64 ∧
    (v = ds.map Nat.digitChar ∨ v = '+' :: ds.map Nat.digitChar)

/-- The names of the kinds of processing. -/
def processingName : Processing → Text
  | .raw => "raw".toList
  | .capsWords => "caps-words".toList

/-- The names of the types of token sets. -/
def typeName : TokenType → Text
  | .bits1 => "bits1".toList
  | .bits2 => "bits2".toList
  | .bits4 => "bits4".toList
  | .bytes => "bytes".toList
  | .bytesHuff => "bytes-huff".toList

/-- The subcommands and their options. -/
def subcommands : List (Text × List Opt) :=
  [("process".toList, [.data, .output]),
   ("count-chars".toList, [.data]),
   ("convert-tokens".toList, [.data, .processedData, .inputTokens, .tokensDir]),
   ("optimize".toList, [.data, .processedData, .tokensDir, .processing, .type, .ntokens, .inputTokens,
      .minDataSize])]

/-- The command line `args` (without the name of the program) asks for the command. -/
inductive Asks : List Text → Command → Prop where
  | process {ss args data output}
      (hl : Line [.data, .output] ss args)
      (hd : Given ss .data data) (ho : Given ss .output output) :
      Asks ("process".toList :: args) (.process data output)
  | countChars {ss args data}
      (hl : Line [.data] ss args) (hd : Given ss .data data) :
      Asks ("count-chars".toList :: args) (.countChars data)
  | convert {ss args data processed inputTokens tokensDir}
      (hl : Line [.data, .processedData, .inputTokens, .tokensDir] ss args)
      (hd : Given ss .data data) (hp : Maybe ss .processedData processed)
      (hi : Given ss .inputTokens inputTokens) (ht : Given ss .tokensDir tokensDir) :
      Asks ("convert-tokens".toList :: args) (.convert data processed inputTokens tokensDir)
  | optimize {ss args data processed tokensDir p ty ntokens inputTokens minSize nv}
      (hl : Line [.data, .processedData, .tokensDir, .processing, .type, .ntokens, .inputTokens,
        .minDataSize] ss args)
      (hd : Given ss .data data) (hpd : Maybe ss .processedData processed)
      (ht : Given ss .tokensDir tokensDir) (hp : Given ss .processing (processingName p))
      (hty : Given ss .type (typeName ty)) (hn : Given ss .ntokens nv) (hnn : Number nv ntokens)
      (hi : Maybe ss .inputTokens inputTokens)
      (hm : (∃ x n, Given ss .minDataSize x ∧ Number x n ∧ minSize = some n) ∨
        (minSize = none ∧ ∀ s ∈ ss, s.opt ≠ .minDataSize)) :
      Asks ("optimize".toList :: args)
        (.optimize data processed tokensDir p ty ntokens inputTokens minSize)

end Spec
end Tokens
