import Verif.Model.Utf8

/-!
Model of the tokenizer over characters: `/repo/src/chars/tokens.rs` (JSON: Model/CharsFile; `Display`: Model/CharsShow),
`/repo/src/chars/token_stats.rs` (without JSON), `/repo/src/chars/tokenizer.rs`.  These files are in the
repository but are not part of the program (src/main.rs:11-18 does not declare them).  A `String` is its list
of characters.  Simplified: numbers are unbounded, except for the cost of a character (`u8`) and the keys of
the table of pairs (`u16`).
-/

namespace Tokens
namespace Chars

/-- src/chars/tokens.rs:6-17 `enum CharsToken`. -/
inductive CToken where
  | ext (n : Nat)
  | char (c : Char)
  | str (s : Text)
  deriving DecidableEq, Repr

/-- src/chars/tokens.rs:37-43 `to_string`. -/
def CToken.text : CToken → Option Text
  | .ext _ => none
  | .char c => some [c]
  | .str s => some s

/-- src/chars/tokens.rs:20-26 `bytes_len`. -/
def CToken.bytesLen : CToken → R Nat
  | .ext _ => .error .unreachable
  | .char c => .ok (String.utf8EncodeChar c).length
  | .str s => .ok (utf8Encode s).length

/-- src/chars/tokens.rs:67-73 `struct CharsTokenSet`.  The array `lo_chars_enc`, which is only used at
characters below 256, and the two maps are functions. -/
structure CSet where
  tokens : List CToken
  loEnc : Char → List Nat
  hiEnc : Char → Option (List Nat)
  byStr : Text → Option Nat

namespace CSet

/-- src/chars/tokens.rs:76-88 `new`. -/
def new (numExt : Nat) : CSet :=
  { tokens := (List.range numExt).map (fun i => .ext (i % 256))
    loEnc := fun _ => []
    hiEnc := fun _ => none
    byStr := fun _ => none }

/-- src/chars/tokens.rs:104-110 `add_encoding`. -/
def addEncoding (ts : CSet) (c : Char) (enc : List Nat) : CSet :=
  if c.toNat < 256 then { ts with loEnc := fun d => if d = c then enc else ts.loEnc d }
  else { ts with hiEnc := fun d => if d = c then some enc else ts.hiEnc d }

/-- src/chars/tokens.rs:94-102 `add_char_token`: the new set (the index is the old number of tokens). -/
def addCharToken (ts : CSet) (c : Char) : CSet :=
  addEncoding { ts with
    tokens := ts.tokens ++ [.char c]
    byStr := fun s => if s = [c] then some ts.tokens.length else ts.byStr s } c [ts.tokens.length]

/-- src/chars/tokens.rs:112-118 `add_string`: the new set (the index is the old number of tokens). -/
def addString (ts : CSet) (s : Text) : CSet :=
  { ts with
    tokens := ts.tokens ++ [.str s]
    byStr := fun x => if x = s then some ts.tokens.length else ts.byStr x }

/-- src/chars/tokens.rs:124-131 `char_encoding`. -/
def charEncoding (ts : CSet) (c : Char) : R (List Nat) :=
  if c.toNat < 256 then .ok (ts.loEnc c) else unwrapR (ts.hiEnc c)

/-- src/chars/tokens.rs:133-142 `char_cost`; `len() as u8` keeps the last 8 bits. -/
def charCost (ts : CSet) (c : Char) : Nat :=
  if c.toNat < 256 then (ts.loEnc c).length % 256
  else match ts.hiEnc c with
    | some enc => enc.length % 256
    | none => 32

/-- src/chars/tokens.rs:148-159 `max_bytes_in_token`: the loop. -/
def maxBytesFrom : List CToken → Nat → Nat
  | [], m => m
  | .ext _ :: rest, m => maxBytesFrom rest m
  | .char c :: rest, m => maxBytesFrom rest (max m (utf8Encode [c]).length)
  | .str s :: rest, m => maxBytesFrom rest (max m (utf8Encode s).length)

/-- src/chars/tokens.rs:148-159 `max_bytes_in_token`. -/
def maxBytes (ts : CSet) : Nat := maxBytesFrom ts.tokens 4

end CSet

/-- src/chars/token_stats.rs:7-13 `struct CharsTokenStats` (without `initial_size`, which only goes into
the JSON); `pair_counts` is a function, 0 for an absent key. -/
structure CStats where
  total : Nat
  literals : Nat
  pairs : Nat → Nat → Nat

namespace CStats

/-- src/chars/token_stats.rs:16-24 `new`. -/
def empty : CStats := { total := 0, literals := 0, pairs := fun _ _ => 0 }

/-- src/chars/token_stats.rs:30-36 `merge`. -/
def merge (a b : CStats) : CStats :=
  { total := a.total + b.total
    literals := a.literals + b.literals
    pairs := fun i j => a.pairs i j + b.pairs i j }

/-- src/chars/token_stats.rs:47-53 `count_token`. -/
def countToken (ts : CSet) (st : CStats) (i : Nat) : R CStats := do
  let t ← getR ts.tokens i
  .ok { st with
    total := st.total + 1
    literals := match t with
      | .char _ => st.literals + 1
      | _ => st.literals }

/-- src/chars/token_stats.rs:56-60 `count_literal`. -/
def countLiteral (ts : CSet) (st : CStats) (c : Char) : CStats :=
  { st with total := st.total + ts.charCost c, literals := st.literals + 1 }

/-- src/chars/tokenizer.rs:98-101: one more of the pair of token `i` and `next`, if there is a next. -/
def countPair (st : CStats) (i : Nat) : Option Nat → CStats
  | none => st
  | some next => { st with
      pairs := fun a b => if a = i % 65536 ∧ b = next then st.pairs a b + 1 else st.pairs a b }

end CStats

/-- src/chars/tokenizer.rs:4-10 `enum TokenId`. -/
inductive TokenId where
  | token (i : Nat)
  | literal (c : Char)
  | invalid
  | start
  deriving DecidableEq, Repr

/-- src/chars/tokenizer.rs:12-16 `struct TokenizerState`. -/
structure St where
  cost : Nat
  token : TokenId
  deriving DecidableEq, Repr

/-- src/chars/tokenizer.rs:37: `bytes[pos] >= 128 && bytes[pos] < 192`, if there is such a byte. -/
def isInside (bytes : Bytes) (pos : Nat) : Bool :=
  match bytes[pos]? with
  | some b => decide (128 ≤ b.toNat) && decide (b.toNat < 192)
  | none => false

/-- src/chars/tokenizer.rs:51-66: the token or literal that the bytes `s` are, after a state of cost `cost`. -/
def pieceOf (ts : CSet) (cost : Nat) (s : Bytes) : Option St :=
  match utf8Decode s with
  | none => none
  | some string =>
    match ts.byStr string with
    | some i => some { cost := cost + 1, token := .token i }
    | none =>
      match string with
      | [c] => some { cost := cost + ts.charCost c, token := .literal c }
      | _ => none

/-- src/chars/tokenizer.rs:46-66: the candidate that starts at `from`. -/
def candidate (ts : CSet) (bytes : Bytes) (states : List St) (pos start : Nat) : R (Option St) := do
  let prev ← getR states start
  .ok (match prev.token with
    | .invalid => none
    | _ => pieceOf ts prev.cost ((bytes.drop start).take (pos - start)))

/-- src/chars/tokenizer.rs:68-71: the better of the candidate and the best one so far. -/
def better : Option St → Option St → Option St
  | none, b => b
  | some x, none => some x
  | some x, some b => if x.cost < b.cost then some x else some b

/-- src/chars/tokenizer.rs:42-72: the loop over the starts; `best` is `best_cost` and `best_token`. -/
def bestOf (ts : CSet) (bytes : Bytes) (states : List St) (pos : Nat) : List Nat → Option St → R (Option St)
  | [], best => .ok best
  | f :: fs, best => do
    let c ← candidate ts bytes states pos f
    bestOf ts bytes states pos fs (better c best)

/-- src/chars/tokenizer.rs:45: `pos.saturating_sub(max_bytes_in_token)..=(pos - 1)`. -/
def starts (maxBytes pos : Nat) : List Nat := List.range' (pos - maxBytes) (pos - (pos - maxBytes))

/-- src/chars/tokenizer.rs:36-80: the loop over the positions. -/
def positions (ts : CSet) (bytes : Bytes) : List Nat → List St → R (List St)
  | [], states => .ok states
  | pos :: rest, states =>
    if isInside bytes pos then positions ts bytes rest (states ++ [{ cost := 0, token := .invalid }])
    else do
      let best ← bestOf ts bytes states pos (starts ts.maxBytes pos) none
      match best with
      | none => .error .assertFailed
      | some st => positions ts bytes rest (states ++ [st])

/-- src/chars/tokenizer.rs:84-117: the way back; `fuel` bounds the number of its steps. -/
def traceback (ts : CSet) (states : List St) : Nat → Nat → Option Nat → CStats → R CStats
  | _, 0, _, st => .ok st
  | 0, _ + 1, _, _ => .error .fuel
  | fuel + 1, pos + 1, next, st => do
    let s ← getR states (pos + 1)
    match s.token with
    | .token i => do
      let st1 ← CStats.countToken ts st i
      let t ← getR ts.tokens i
      let n ← t.bytesLen
      let pos' ← subR (pos + 1) n
      traceback ts states fuel pos' (some (i % 65536)) (st1.countPair i next)
    | .literal c => do
      let pos' ← subR (pos + 1) (String.utf8EncodeChar c).length
      traceback ts states fuel pos' none (CStats.countLiteral ts st c)
    | .invalid => .error .unreachable
    | .start => .error .unreachable

/-- src/chars/tokenizer.rs:27-121 `process_slice`. -/
def processSlice (ts : CSet) (bytes : Bytes) : R CStats := do
  let states ← positions ts bytes (List.range' 1 bytes.length) [{ cost := 0, token := .start }]
  traceback ts states bytes.length bytes.length none CStats.empty

/-- src/chars/optimizer.rs:30-43 `tokenize`: the samples, merged in order. -/
def tokenizeFrom (ts : CSet) : List Bytes → CStats → R CStats
  | [], st => .ok st
  | x :: xs, st => do
    let s ← processSlice ts x
    tokenizeFrom ts xs (st.merge s)

/-- src/chars/optimizer.rs:30-43 `tokenize`. -/
def tokenize (ts : CSet) (samples : List Bytes) : R CStats := tokenizeFrom ts samples CStats.empty

end Chars
end Tokens
