import Verif.Model.OldOptimizer
import Verif.Model.Json

/-!
Model of the JSON of the first generation (`/repo/src/tokens.rs`, `/repo/src/stats.rs`) and of
`optimize_all` in `/repo/src/optimizer.rs`.  These files are in the repository but are not part of the program.
Simplified: a file is the JSON value that was written (printing and parsing by the crate `json` are not modelled,
nor is a crash in the middle of a write); how numbers with a fraction are written is a parameter; a number with a
fraction or an exponent is never read as an integer.
-/

namespace Tokens
namespace Old

/-- How the numbers with a fraction are written: `bytes_per_token`, `literal_dist_entropy`, `cost_per_byte`. -/
structure OFloats where
  bytesPerToken : Nat → Nat → Json
  entropy : OSet → OStats → Json
  costPerByte : Nat → Nat → Json

/-- A natural number as JSON. -/
def natJson (n : Nat) : Json := .num (n : Int)

/-- src/stats.rs:67-90 `TokenStats::to_json`. -/
def OStats.toJson (fl : OFloats) (ts : OSet) (st : OStats) (size : Nat) : Json :=
  let final := st.totalTokens + ts.literal.tokensInLiteral * st.totalLiterals
  .obj [
    (['n', 't', 'o', 'k', 'e', 'n', 's'], natJson (st.tokenCount.length + ts.literal.reservedTokens)),
    (['l', 'i', 't', 'e', 'r', 'a', 'l', '_', 'c', 'o', 's', 't'], natJson st.literalCost),
    (['i', 'n', 'i', 't', 'i', 'a', 'l', '_', 's', 'i', 'z', 'e'], natJson size),
    (['s', 'c', 'a', 'n', 'n', 'e', 'd', '_', 'b', 'y', 't', 'e', 's'], natJson st.scannedBytes),
    (['t', 'o', 't', 'a', 'l', '_', 'c', 'o', 's', 't'], natJson st.cost),
    (['t', 'o', 't', 'a', 'l', '_', 't', 'o', 'k', 'e', 'n', 's'], natJson st.totalTokens),
    (['t', 'o', 't', 'a', 'l', '_', 'l', 'i', 't', 'e', 'r', 'a', 'l', 's'], natJson st.totalLiterals),
    (['f', 'i', 'n', 'a', 'l', '_', 't', 'o', 'k', 'e', 'n', 's'], natJson final),
    (['b', 'y', 't', 'e', 's', '_', 'p', 'e', 'r', '_', 't', 'o', 'k', 'e', 'n'], fl.bytesPerToken size final),
    (['l', 'i', 't', 'e', 'r', 'a', 'l', '_', 'd', 'i', 's', 't', '_', 'e', 'n', 't', 'r', 'o', 'p', 'y'],
      fl.entropy ts st),
    (['c', 'o', 's', 't', '_', 'p', 'e', 'r', '_', 'b', 'y', 't', 'e'], fl.costPerByte st.cost size)]

/-- The names of the members that `from_json` reads. -/
def kTokens : Text := ['t', 'o', 'k', 'e', 'n', 's']
def kStats : Text := ['s', 't', 'a', 't', 's']
def kType : Text := ['t', 'y', 'p', 'e']
def kBits : Text := ['f', 'a', 'l', 'l', 'b', 'a', 'c', 'k', '_', 'b', 'i', 't', 's']
def kCounts : Text := ['l', 'i', 't', 'e', 'r', 'a', 'l', '_', 'c', 'o', 'u', 'n', 't']
def kProcessing : Text := ['p', 'r', 'o', 'c', 'e', 's', 's', 'i', 'n', 'g']

/-- The values of `type`. -/
def tHex : Text := ['f', 'a', 'l', 'l', 'b', 'a', 'c', 'k', '1', '6']
def tAll : Text := ['a', 'l', 'l', '_', 't', 'o', 'k', 'e', 'n', 's']
def tBits : Text := ['f', 'a', 'l', 'l', 'b', 'a', 'c', 'k', '_', 'b', 'i', 't', 's']
def tStrBits : Text := ['s', 't', 'r', '_', 'w', 'i', 't', 'h', '_', 'f', 'a', 'l', 'l', 'b', 'a', 'c', 'k', '_', 'b', 'i',
  't', 's']
def tDist : Text := ['f', 'a', 'l', 'l', 'b', 'a', 'c', 'k', '_', 'd', 'i', 's', 't', 'r', 'i', 'b', 'u', 't', 'i', 'o', 'n']

/-- src/tokens.rs:348-375: the members that say how literals are written. -/
def literalJson (le : LiteralEncoding) (st : OStats) : List (Text × Json) :=
  match le with
  | .hex => [(kType, .str tHex)]
  | .all => [(kType, .str tAll)]
  | .bits1 => [(kType, .str tBits), (kBits, natJson 1)]
  | .bits2 => [(kType, .str tBits), (kBits, natJson 2)]
  | .bits4 => [(kType, .str tBits), (kBits, natJson 4)]
  | _ => [(kType, .str tDist), (kCounts, .arr (st.literalCount.map natJson))]

/-- src/tokens.rs:327-346: the numbers of the reserved tokens, then the strings in their order. -/
def tokensJson (ts : OSet) : List Json :=
  (List.range ts.literal.reservedTokens).map natJson ++
    ((ts.tokens.map OToken.string).mergeSort bytesLe).map bytesToJson

/-- src/tokens.rs:320-379 `TokenSet::to_json`, and src/optimizer.rs:496-497: `processing`. -/
def fileJson (fl : OFloats) (size : Nat) (processing : Text) (ts : OSet) (st : OStats) : Json :=
  .obj ([(kTokens, .arr (tokensJson ts)), (kStats, st.toJson fl ts size)] ++ literalJson ts.literal st ++
    [(kProcessing, .str processing)])

/-- `parsed[key]`: `Null` when there is no such member. -/
def member (v : Json) (key : Text) : Json :=
  match v with
  | .obj l => (l.lookup key).getD .null
  | _ => .null

/-- `as_usize` and `as_u8`: a number from 0 to `max`. -/
def asUpTo (max : Nat) : Json → Option Nat
  | .num n => if 0 ≤ n ∧ n ≤ max then some n.toNat else none
  | _ => none

/-- src/tokens.rs:266-278: how literals are written. -/
def literalOf (v : Json) : R LiteralEncoding := do
  let ty ← unwrapR (member v kType).asStr
  if ty = tStrBits ∨ ty = tBits then do
    let k ← unwrapR (asUpTo (2 ^ 64 - 1) (member v kBits))
    if k = 1 then .ok .bits1 else if k = 2 then .ok .bits2 else if k = 4 then .ok .bits4 else .error .panic
  else if ty = tHex then .ok .hex
  else if ty = tDist then .ok .dist8
  else if ty = tAll then .ok .all
  else .error .panic

/-- src/tokens.rs:286-290: the bytes of a token that is an array. -/
def bytesOf : List Json → R Bytes
  | [] => .ok []
  | j :: js => do
    let b ← unwrapR (asUpTo 255 j)
    let rest ← bytesOf js
    .ok (UInt8.ofNat b :: rest)

/-- src/tokens.rs:282-296: one element of `tokens`. -/
def readToken (le : LiteralEncoding) (ts : OSet) : Json → R OSet
  | .str s => ts.addToken (utf8Encode s)
  | .arr l => do
    let s ← bytesOf l
    ts.addToken s
  | .num n => do
    let v ← unwrapR (asUpTo (2 ^ 64 - 1) (.num n))
    rassert (decide (v < le.reservedTokens))
    .ok ts
  | .float _ => .error .unwrapNone
  | _ => .ok ts

/-- src/tokens.rs:282-297: the loop over `tokens`. -/
def readTokens (le : LiteralEncoding) : OSet → List Json → R OSet
  | ts, [] => .ok ts
  | ts, j :: js => do
    let ts' ← readToken le ts j
    readTokens le ts' js

/-- `members()`: the elements of an array; other values have none. -/
def membersOf : Json → List Json
  | .arr l => l
  | _ => []

/-- src/tokens.rs:262-299 `TokenSet::from_json`, after the file was parsed. -/
def OSet.fromJson (v : Json) : R OSet := do
  let le ← literalOf v
  let ts ← OSet.new le
  readTokens le ts (membersOf (member v kTokens))

/-! ### `optimize_all` -/

/-- The files of a directory for one processing and one kind of literals, by the number of tokens in the name. -/
abbrev OFiles := Nat → Option Json

/-- src/optimizer.rs:663-669: the set to start with. -/
def startingSet (files : OFiles) (n : Nat) : R OSet :=
  match loadPrev (fun m => (files m).isSome) n with
  | some m => do
    let v ← unwrapR (files m)
    OSet.fromJson v
  | none => OSet.new .dist8

/-- src/optimizer.rs:489-502: the file for `n` tokens after sets were saved there, one after the other. -/
def OFiles.saves (fl : OFloats) (size : Nat) (processing : Text) (files : OFiles) (n : Nat) (saved : List (OSet × OStats)) :
    OFiles :=
  saved.foldl (fun f p => fun m => if m = n then some (fileJson fl size processing p.1 p.2) else f m) files

/-- What does not change in a run of `optimize_all`: the surroundings, the size of the data, the name of the
processing, whether it is `raw`, and a bound on the number of rounds of each loop. -/
structure Job where
  env : Env
  fl : OFloats
  size : Nat
  processing : Text
  raw : Bool
  maxTokens : Nat
  fuel : Nat

/-- src/optimizer.rs:622-690 `optimize_all`, from the number of tokens `n` on: the result and the files. -/
inductive OptimizeAll (j : Job) : Nat → OFiles → R Unit → OFiles → Prop where
  | done {n : Nat} {files : OFiles} (h : j.maxTokens < n) : OptimizeAll j n files (.ok ()) files
  /-- src/optimizer.rs:637-639 -/
  | block {n : Nat} {files : OFiles} {e : Err} (h : n ≤ j.maxTokens) (hb : blockFor j.fuel n = .error e) :
      OptimizeAll j n files (.error e) files
  | skip {n b : Nat} {files files' : OFiles} {r : R Unit} (h : n ≤ j.maxTokens) (hb : blockFor j.fuel n = .ok b)
      (hs : skips j.raw n = true) (hr : OptimizeAll j (n * 2) files r files') : OptimizeAll j n files r files'
  | load {n b : Nat} {files : OFiles} {e : Err} (h : n ≤ j.maxTokens) (hb : blockFor j.fuel n = .ok b)
      (hs : skips j.raw n = false) (hl : startingSet files n = .error e) : OptimizeAll j n files (.error e) files
  | fail {n b : Nat} {files : OFiles} {ts : OSet} {e : Err} {w : World} (h : n ≤ j.maxTokens)
      (hb : blockFor j.fuel n = .ok b) (hs : skips j.raw n = false) (hl : startingSet files n = .ok ts)
      (ho : Run j.env (optimizeTokenSet j.fuel ts n b) World.start (.error e) w) :
      OptimizeAll j n files (.error e) (files.saves j.fl j.size j.processing n w.saved)
  | next {n b : Nat} {files files' : OFiles} {ts : OSet} {r : R Unit} {w : World} (h : n ≤ j.maxTokens)
      (hb : blockFor j.fuel n = .ok b) (hs : skips j.raw n = false) (hl : startingSet files n = .ok ts)
      (ho : Run j.env (optimizeTokenSet j.fuel ts n b) World.start (.ok ()) w)
      (hr : OptimizeAll j (n * 2) (files.saves j.fl j.size j.processing n w.saved) r files') :
      OptimizeAll j n files r files'

end Old
end Tokens
