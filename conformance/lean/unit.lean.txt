import Verif.Model.JsonRead
import Verif.Model.Batch
import Verif.Spec.Words
open Tokens Processing TokenSet

def check (name : String) (b : Bool) : IO Unit := IO.println s!"{if b then "ok  " else "FAIL"} {name}"

def adds (ts : TokenSet) : List String → R TokenSet
  | [] => .ok ts
  | s :: l => do
    let (ts, _) ← ts.addToken s.toUTF8.toList
    adds ts l

def total (mk : R TokenSet) (toks : List String) (text : String) : Option Nat := Except.toOption do
  let ts ← adds (← mk) toks
  let tk ← FragmentTokenizer.new ts
  let st ← tk.processSlice text.toUTF8.toList (TokenStats.new ts (some 3))
  .ok st.totalTokens

def proc (a b : String) : IO Unit :=
  check s!"process {a}" ((process Spec.asciiOnly a.toList).toOption == some b.toList)

def main : IO Unit := do
  -- src/processing.rs:148-166 test_process
  proc "Hello, world!" "\x14hello\x16, world\x16!"
  proc "hello, world!" "hello\x16, world\x16!"
  proc "HELLO, world!" "\x15hello\x16, world\x16!"
  proc "HeLLo, world!" "HeLLo\x16, world\x16!"
  proc "Hello world!" "\x14hello\x16world\x16!"
  proc "Hello , world!" "\x14hello\x16 , world\x16!"
  proc "Hello, world " "\x14hello\x16, world\x16 "
  proc "Hello, world" "\x14hello\x16, world\x16"
  proc "Hello, World" "\x14hello\x16, \x14world\x16"
  proc "Hello World" "\x14hello\x16\x14world\x16"
  proc "Hello WORLD" "\x14hello\x16\x15world\x16"
  -- src/tokenizer2.rs:281 tokenize, 296 tokenize_seq
  check "tokenize" (total (newBits1 .raw true) ["a", "ab", "bc"] "abc" == some 2)
  check "tokenize_seq" (total (newBits4 .raw true) ["ab", "b", "c", "d", "e", "bcde"] "abcde" == some 3)
  -- src/tokenset.rs:441 token_to_json
  check "token_to_json 1" ((Token.ext 127).toJson.render == (Json.num 127).render)
  check "token_to_json 2" ((Token.str [0xd0, 0xb0, 0xd0, 0xb1]).toJson.render == (Json.str "аб".toList).render)
  check "token_to_json 3" ((Token.str [0xb0, 0xff]).toJson.render == (Json.arr [.num 0xb0, .num 0xff]).render)
  -- src/tokenset.rs:454 token_set_to_json, 470 token_set_name
  let r : R TokenSet := do adds (← newBits4 .raw true) ["a", "b", "c"]
  match r with
  | .error _ => check "token_set_to_json" false
  | .ok ts =>
    check "token_set_name" (ts.name == "tokens19_raw_bits4".toList)
    match ts.toJson with
    | .error _ => check "token_set_to_json" false
    | .ok v =>
      check "token_set_to_json type" ((v.index "type").asStr == some "bits4".toList)
      check "token_set_to_json tokens" ((v.index "tokens").asArray.map List.length == some 19)
      check "token_set_to_json sequences" ((v.index "sequences").asArray.map List.length == some 253)
      check "token_set_to_json from_json" (TokenSet.fromJson v).toBool
  -- src/tokenset.rs:480 sort
  let r : R TokenSet := do
    let ts ← adds (← TokenSet.new 2 .raw .bytesHuff true) ["b", "a", "c"]
    ((ts.addSequence [101] [3, 0]).addSequence [100] [2, 3, 1]).sort
  match r with
  | .error _ => check "sort" false
  | .ok ts =>
    check "sort tokens" (ts.tokens == [.ext 0, .ext 1, .str [97], .str [98], .str [99]])
    check "sort sequences" (ts.sequences == [⟨[100], [3, 2, 1]⟩, ⟨[101], [2, 0]⟩])
  -- src/tokenset.rs:514 remove_token
  let r : R TokenSet := do
    let ts ← adds (← TokenSet.new 2 .raw .bytesHuff true) ["a", "bc", "c"]
    ((ts.addSequence [100] [2, 0]).addSequence [101] [4, 2, 1]).removeToken 3
  match r with
  | .error _ => check "remove_token" false
  | .ok ts =>
    check "remove_token tokens" (ts.tokens.length == 4 && ts.tokens[3]? == some (.str [99]))
    check "remove_token sequences" (ts.sequences == [⟨[100], [2, 0]⟩, ⟨[101], [3, 2, 1]⟩])
