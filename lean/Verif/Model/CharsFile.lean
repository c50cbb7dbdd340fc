import Verif.Model.CharsOptimizer
import Verif.Model.JsonRead

/-!
Model of the file that the optimizer over characters writes: the JSON in `/repo/src/chars/tokens.rs` and
`/repo/src/chars/token_stats.rs`, and `serde_json::to_string_pretty`.  These files are in the repository but are not part of
the program.
-/

namespace Tokens

namespace Json

/-- A new line of `to_string_pretty`: two spaces for each level. -/
def newLine (d : Nat) : Text := '\n' :: List.replicate (2 * d) ' '

mutual
/-- `serde_json::to_string_pretty`; `d` is the level. -/
def renderPretty (d : Nat) : Json → Text
  | .null => "null".toList
  | .bool true => "true".toList
  | .bool false => "false".toList
  | .num n => renderInt n
  | .float t => t
  | .str s => renderStr s
  | .arr l => '[' :: prettyArr d true l
  | .obj l => '{' :: prettyObj d true l
/-- The elements and the closing bracket; `first` tells whether no element has been written yet. -/
def prettyArr (d : Nat) : Bool → List Json → Text
  | first, [] => (if first then [] else newLine d) ++ [']']
  | first, j :: js =>
    (if first then [] else [',']) ++ (newLine (d + 1) ++ (renderPretty (d + 1) j ++ prettyArr d false js))
/-- The members and the closing brace. -/
def prettyObj (d : Nat) : Bool → List (Text × Json) → Text
  | first, [] => (if first then [] else newLine d) ++ ['}']
  | first, (k, j) :: js =>
    (if first then [] else [',']) ++
      (newLine (d + 1) ++ (renderStr k ++ (':' :: ' ' :: (renderPretty (d + 1) j ++ prettyObj d false js))))
end

end Json

namespace Chars

/-- src/chars/tokens.rs:28-34 `CharsToken::to_json`. -/
def CToken.toJson : CToken → Json
  | .ext n => .num n
  | .char c => .str [c]
  | .str s => .str s

/-- src/chars/tokens.rs:160-173 `tokens_to_json`. -/
def CSet.tokensJson (ts : CSet) : List Json := ts.tokens.map CToken.toJson

/-- src/chars/tokens.rs:183-186 and 198-201: `self.tokens[t.id()].to_json()` for the tokens of an encoding. -/
def CSet.encJson (ts : CSet) : List Nat → R (List Json)
  | [] => .ok []
  | i :: is => do
    let t ← getR ts.tokens i
    let rest ← encJson ts is
    .ok (t.toJson :: rest)

/-- src/chars/tokens.rs:178-188 and 193-203: a loop over characters and their encodings.  `out` is a map in the order of its keys
(`serde_json` without `preserve_order`). -/
def CSet.encLoop (ts : CSet) : List (Char × List Nat) → List (Text × Json) → R (List (Text × Json))
  | [], out => .ok out
  | (c, enc) :: rest, out =>
    if enc.length ≤ 1 then encLoop ts rest out
    else do
      let js ← ts.encJson enc
      encLoop ts rest (JsonRead.insertKey [c] (.arr js) out)

/-- src/chars/tokens.rs:178, 182: the characters below 256. -/
def loChars : List Char := (List.range 256).map Char.ofNat

/-- All characters in order. -/
def allChars : List Char := (List.range 0x110000).filterMap fromU32

/-- src/chars/tokens.rs:190-194: the entries of `hi_chars_enc` in the order of the characters. -/
def CSet.hiEntries (ts : CSet) : List (Char × List Nat) := allChars.filterMap (fun c => (ts.hiEnc c).map (fun e => (c, e)))

/-- src/chars/tokens.rs:175-206 `encodings_to_json`. -/
def CSet.encodingsJson (ts : CSet) : R Json := do
  let out ← ts.encLoop (loChars.map (fun c => (c, ts.loEnc c))) []
  let out ← ts.encLoop ts.hiEntries out
  .ok (.obj out)

/-- src/chars/token_stats.rs:62-79 `to_json`.  `ratio a b` is the JSON of the `f64` quotient `a / b`. -/
def CStats.toJson (ratio : Nat → Nat → Json) (ts : CSet) (initialSize : Option Nat) (st : CStats) : R Json := do
  let encodings ← ts.encodingsJson
  .ok (.obj [
    ("encodings".toList, encodings),
    ("stats".toList, .obj (
      (match initialSize with
        | some s => [("bytes_per_token".toList, ratio s st.total), ("initial_size".toList, .num s)]
        | none => []) ++
      [("ntokens".toList, .num ts.tokens.length), ("total_tokens".toList, .num st.total)])),
    ("tokens".toList, .arr ts.tokensJson),
    ("type".toList, .str "chars".toList)])

/-- src/chars/optimizer.rs:264-300 `optimize_chars_tokens`: the text of the file. -/
def optimizedFile (ratio : Nat → Nat → Json) (order : CStats → List (Nat × Nat)) (samples : List Text) (ntokens initialSize : Nat) :
    R Text := do
  let (ts, st) ← optimizeCharsTokens order samples ntokens
  let v ← st.toJson ratio ts (some initialSize)
  .ok (v.renderPretty 0)

end Chars
end Tokens
