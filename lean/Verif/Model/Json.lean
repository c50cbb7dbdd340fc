import Verif.Model.Utf8
import Verif.Model.Stats

/-!
Model of the JSON code of `/repo/src/tokenset.rs` and `/repo/src/stats2.rs`, with the parts of
`serde_json` it uses: values, indexing, and the text written by `serde_json::to_string`.
-/

namespace Tokens

/-- `serde_json::Value`.  Integers are `num`; a non-integer number is `float` with the text serde
writes for it.  An object is the list of its members in the order of its keys (serde_json without
`preserve_order` stores a `BTreeMap`). -/
inductive Json where
  | null
  | bool (b : Bool)
  | num (n : Int)
  | float (text : Text)
  | str (s : Text)
  | arr (l : List Json)
  | obj (l : List (Text × Json))

namespace Json

/-- `Value::as_str`. -/
def asStr : Json → Option Text
  | .str s => some s
  | _ => none

/-- `Value::as_array`. -/
def asArray : Json → Option (List Json)
  | .arr l => some l
  | _ => none

/-- `Value::as_object`. -/
def asObject : Json → Option (List (Text × Json))
  | .obj l => some l
  | _ => none

/-- `Value::is_number`. -/
def isNumber : Json → Bool
  | .num _ => true
  | .float _ => true
  | _ => false

/-- `Value::as_i64`. -/
def asI64 : Json → Option Int
  | .num n => if -2 ^ 63 ≤ n ∧ n < 2 ^ 63 then some n else none
  | _ => none

/-- `Value::as_u64`. -/
def asU64 : Json → Option Int
  | .num n => if 0 ≤ n ∧ n < 2 ^ 64 then some n else none
  | _ => none

/-- `Value::get(key)`. -/
def get? (v : Json) (key : String) : Option Json :=
  match v with
  | .obj l => l.lookup key.toList
  | _ => none

/-- `value[key]`: `Null` when there is no such member. -/
def index (v : Json) (key : String) : Json := (v.get? key).getD .null

/-- `n as u8` for a 64-bit integer: the low 8 bits. -/
def asU8 (n : Int) : UInt8 := UInt8.ofNat (n % 256).toNat

/-! ### serde_json::to_string -/

/-- A hexadecimal digit as serde writes it. -/
def hexDigit (n : Nat) : Char := if n < 10 then Char.ofNat (48 + n) else Char.ofNat (87 + n)

/-- serde_json's escaping of one character inside a string: quote, backslash and control characters
below U+0020; everything else is written as it is. -/
def escapeChar (c : Char) : Text :=
  if c = '"' then ['\\', '"']
  else if c = '\\' then ['\\', '\\']
  else if c.toNat = 8 then ['\\', 'b']
  else if c.toNat = 9 then ['\\', 't']
  else if c.toNat = 10 then ['\\', 'n']
  else if c.toNat = 12 then ['\\', 'f']
  else if c.toNat = 13 then ['\\', 'r']
  else if c.toNat < 32 then ['\\', 'u', '0', '0', hexDigit (c.toNat / 16), hexDigit (c.toNat % 16)]
  else [c]

/-- A string literal. -/
def renderStr (s : Text) : Text := '"' :: (s.flatMap escapeChar ++ ['"'])

/-- An integer. -/
def renderInt : Int → Text
  | .ofNat n => Nat.toDigits 10 n
  | .negSucc n => '-' :: Nat.toDigits 10 (n + 1)

mutual
/-- `serde_json::to_string` (compact form). -/
def render : Json → Text
  | .null => "null".toList
  | .bool true => "true".toList
  | .bool false => "false".toList
  | .num n => renderInt n
  | .float t => t
  | .str s => renderStr s
  | .arr l => '[' :: renderArr true l
  | .obj l => '{' :: renderObj true l
/-- The elements and the closing bracket; `first` tells whether no element has been written yet. -/
def renderArr : Bool → List Json → Text
  | _, [] => [']']
  | first, j :: js => (if first then [] else [',']) ++ (render j ++ renderArr false js)
/-- The members and the closing brace. -/
def renderObj : Bool → List (Text × Json) → Text
  | _, [] => ['}']
  | first, (k, j) :: js =>
    (if first then [] else [',']) ++ (renderStr k ++ (':' :: (render j ++ renderObj false js)))
end

end Json

/-! ### src/tokenset.rs -/

/-- `json!(bytes)` for a byte slice: an array of numbers. -/
def bytesAsArray (b : Bytes) : Json := .arr (b.map (fun x => .num x.toNat))

/-- src/tokenset.rs:51-56 `bytes_to_json`. -/
def bytesToJson (b : Bytes) : Json :=
  match utf8Decode b with
  | some s => .str s
  | none => bytesAsArray b

/-- src/tokenset.rs:67-70: `v.iter().map(|b| b.as_i64().unwrap() as u8)`. -/
def parseByteArray : List Json → R Bytes
  | [] => .ok []
  | j :: js => do
    let n ← unwrapR j.asI64
    let rest ← parseByteArray js
    .ok (Json.asU8 n :: rest)

/-- src/tokenset.rs:65-75 `parse_token`. -/
def parseToken : Json → R Token
  | .arr v => do
    let b ← parseByteArray v
    .ok (.str b)
  | .str s => .ok (.str (utf8Encode s))
  | .num n => do
    let x ← unwrapR (Json.asU64 (.num n))
    .ok (.ext (Json.asU8 x))
  | .float t => do
    let x ← unwrapR (Json.asU64 (.float t))
    .ok (.ext (Json.asU8 x))
  | _ => .error .panic

/-- src/tokenset.rs:77-84 `Token::to_json`. -/
def Token.toJson : Token → Json
  | .ext n => .num n.toNat
  | .str b => bytesToJson b

/-- src/processing.rs:6-11: the derived `Serialize` and src/processing.rs:13-24 `Display`, which
give the same text. -/
def Processing.text : Processing → Text
  | .raw => "raw".toList
  | .capsWords => "capswords".toList

/-- src/tokenset.rs:9-10: the derived `Serialize`, and src/tokenset.rs:25-39 `Display`, which give
the same text. -/
def TokenType.text : TokenType → Text
  | .bits1 => "bits1".toList
  | .bits2 => "bits2".toList
  | .bits4 => "bits4".toList
  | .bytes => "bytes".toList
  | .bytesHuff => "byteshuff".toList

/-- src/tokenset.rs:123-127: the tokens of a sequence as JSON. -/
def listedJson (tokens : List Token) : List Nat → R (List Json)
  | [] => .ok []
  | i :: is => do
    let t ← getR tokens i
    let rest ← listedJson tokens is
    .ok (t.toJson :: rest)

/-- src/tokenset.rs:121-133 `Sequence::to_json`. -/
def Sequence.toJson (tokens : List Token) (q : Sequence) : R Json := do
  let seq ← listedJson tokens q.tokens
  .ok (.obj [("string".toList, bytesToJson q.string), ("tokens".toList, .arr seq)])

/-- src/tokenset.rs:402-407: the sequences as JSON. -/
def seqsJson (tokens : List Token) : List Sequence → R (List Json)
  | [] => .ok []
  | q :: qs => do
    let j ← q.toJson tokens
    let js ← seqsJson tokens qs
    .ok (j :: js)

namespace TokenSet

/-- src/tokenset.rs:395-412 `TokenSet::to_json`. -/
def toJson (ts : TokenSet) : R Json := do
  let sequences ← seqsJson ts.tokens (ts.sequences.filter (fun q => decide (q.tokens.length > 1)))
  .ok (.obj (
    [("processing".toList, .str ts.processing.text)] ++
    (if sequences.isEmpty then [] else [("sequences".toList, .arr sequences)]) ++
    [("split_paragraphs".toList, .bool ts.splitParagraphs),
     ("tokens".toList, .arr (ts.tokens.map Token.toJson)),
     ("type".toList, .str ts.tokenType.text)]))

/-- src/tokenset.rs:242-246. -/
def parseProcessing (v : Json) : R Processing :=
  match (v.index "processing").asStr with
  | some s =>
    if s = "raw".toList then .ok .raw
    else if s = "capswords".toList then .ok .capsWords
    else .error .panic
  | none => .error .panic

/-- src/tokenset.rs:247-261. -/
def parseType (v : Json) : R TokenType :=
  match (v.index "type").asStr with
  | some s =>
    if s = "fallback_bits".toList then do
      let n ← unwrapR (v.index "fallback_bits").asI64
      if n = 1 then .ok .bits1
      else if n = 2 then .ok .bits2
      else if n = 4 then .ok .bits4
      else .error .unreachable
    else if s = "all_tokens".toList then .ok .bytes
    else if s = "bits1".toList then .ok .bits1
    else if s = "bits2".toList then .ok .bits2
    else if s = "bits4".toList then .ok .bits4
    else if s = "bytes".toList then .ok .bytes
    else if s = "byteshuff".toList then .ok .bytesHuff
    else .error .panic
  | none => .error .panic

/-- src/tokenset.rs:262-266 (the key is `split_paragraph`, without the final s). -/
def parseSplit (v : Json) : R Bool :=
  match v.get? "split_paragraph" with
  | none => .ok false
  | some (.bool b) => .ok b
  | some _ => .error .panic

/-- src/tokenset.rs:268-286: the set to start from. -/
def startSet (ty : TokenType) (nExt : Nat) (p : Processing) (split : Bool) : R TokenSet :=
  match ty with
  | .bits1 => do rassert (decide (nExt = 2)); newBits1 p split
  | .bits2 => do rassert (decide (nExt = 4)); newBits2 p split
  | .bits4 => do rassert (decide (nExt = 16)); newBits4 p split
  | .bytes => do rassert (decide (nExt = 0)); new 0 p .bytes split
  | .bytesHuff => new nExt p .bytesHuff split

/-- src/tokenset.rs:287-291: add the string tokens. -/
def loadTokens (ts : TokenSet) : List Json → R TokenSet
  | [] => .ok ts
  | j :: js => do
    match ← parseToken j with
    | .str s => do
      let (ts', _) ← ts.addToken s
      loadTokens ts' js
    | .ext _ => loadTokens ts js

/-- src/tokenset.rs:296-301: the token numbers of a sequence. -/
def loadListed (tokens : List Token) : List Json → R (List Nat)
  | [] => .ok []
  | j :: js => do
    let t ← parseToken j
    let idx ← unwrapR (tokens.findIdx? (fun x => x == t))
    let rest ← loadListed tokens js
    .ok (idx :: rest)

/-- src/tokenset.rs:294-304: add the sequences. -/
def loadSeqs (ts : TokenSet) : List Json → R TokenSet
  | [] => .ok ts
  | j :: js => do
    match ← parseToken (j.index "string") with
    | .str s => do
      let l ← unwrapR (j.index "tokens").asArray
      let idxs ← loadListed ts.tokens l
      loadSeqs (ts.addSequence s idxs) js
    | .ext _ => .error .panic

/-- src/tokenset.rs:235-308 `TokenSet::from_json`. -/
def fromJson (v : Json) : R TokenSet := do
  let toks ← unwrapR (v.index "tokens").asArray
  let nExt := (toks.filter Json.isNumber).length
  let p ← parseProcessing v
  let ty ← parseType v
  let split ← parseSplit v
  let ts ← startSet ty nExt p split
  let ts ← loadTokens ts toks
  let obj ← unwrapR v.asObject
  if (obj.lookup "sequences".toList).isSome then do
    let seqs ← unwrapR (v.index "sequences").asArray
    loadSeqs ts seqs
  else .ok ts

/-- src/tokenset.rs:310-317 `name`. -/
def name (ts : TokenSet) : Text :=
  "tokens".toList ++ Nat.toDigits 10 ts.ntokens ++ ['_'] ++ ts.processing.text ++ ['_'] ++
    ts.tokenType.text

end TokenSet

namespace TokenStats

/-- src/stats2.rs:53-69 `TokenStats::to_json`.  `ratio s t` is the JSON of the `f64` quotient
`s / t` (serde writes `null` for 0/0 and x/0). -/
def toJson (ratio : Nat → Nat → Json) (st : TokenStats) : R Json := do
  let stats : Json := .obj (
    (match st.initialSize with
      | some s => [("bytes_per_token".toList, ratio s st.totalTokens), ("initial_size".toList, .num s)]
      | none => []) ++
    [("ntokens".toList, .num st.ntokens), ("scanned_bytes".toList, .num st.scannedBytes),
     ("total_tokens".toList, .num st.totalTokens)])
  match ← st.tokenSet.toJson with
  | .obj l =>
    -- `result["stats"] = stats`: inserted in key order, before "tokens"
    .ok (.obj (l.takeWhile (fun kv => kv.1 != "tokens".toList) ++ ("stats".toList, stats) ::
      l.dropWhile (fun kv => kv.1 != "tokens".toList)))
  | _ => .error .panic

end TokenStats
end Tokens
