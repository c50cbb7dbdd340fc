import Verif.Model.Prelude

/-!
Model of `/repo/src/tokenset.rs` (everything except JSON, which is in `Verif/Model/Json.lean`).
-/

namespace Tokens

/-- src/processing.rs:6-11 `enum Processing`. -/
inductive Processing where
  | raw
  | capsWords
  deriving DecidableEq, Repr

/-- src/tokenset.rs:9-23 `enum TokenType`. -/
inductive TokenType where
  | bits1
  | bits2
  | bits4
  | bytes
  | bytesHuff
  deriving DecidableEq, Repr

/-- src/tokenset.rs:41-49 `enum Token`. -/
inductive Token where
  | str (s : Bytes)
  | ext (n : UInt8)
  deriving DecidableEq, Repr

/-- `Vec<u8>::cmp` restricted to "not greater": lexicographic comparison of byte strings
(used by the derived calls in src/tokenset.rs:92 and 137). -/
def bytesLe : Bytes → Bytes → Bool
  | [], _ => true
  | _ :: _, [] => false
  | a :: as, b :: bs => decide (a < b) || (decide (a = b) && bytesLe as bs)

/-- src/tokenset.rs:86-95 `impl Ord for Token`, as `self <= other`. -/
def Token.le : Token → Token → Bool
  | .ext x, .ext y => decide (x ≤ y)
  | .ext _, .str _ => true
  | .str _, .ext _ => false
  | .str x, .str y => bytesLe x y

/-- src/tokenset.rs:112-119 `struct Sequence`. -/
structure Sequence where
  string : Bytes
  tokens : List Nat
  deriving DecidableEq, Repr

/-- src/tokenset.rs:135-139 `impl Ord for Sequence`, as `self <= other`: compares only the strings. -/
def Sequence.le (a b : Sequence) : Bool := bytesLe a.string b.string

/-- src/tokenset.rs:147-161 `struct TokenSet`. -/
structure TokenSet where
  nExt : Nat
  tokenType : TokenType
  processing : Processing
  splitParagraphs : Bool
  tokens : List Token
  sequences : List Sequence
  deriving DecidableEq, Repr

namespace TokenSet

/-- src/tokenset.rs:164-183 `TokenSet::new`; `i as u8` is `UInt8.ofNat`. -/
def new (nExt : Nat) (p : Processing) (ty : TokenType) (split : Bool) : R TokenSet := do
  rassert (decide (nExt < 256))
  .ok { nExt := nExt, tokenType := ty, processing := p, splitParagraphs := split,
        tokens := (List.range nExt).map (fun i => Token.ext (UInt8.ofNat i)),
        sequences := [] }

/-- src/tokenset.rs:331-334 `add_sequence`. -/
def addSequence (ts : TokenSet) (string : Bytes) (tokens : List Nat) : TokenSet :=
  { ts with sequences := ts.sequences ++ [{ string := string, tokens := tokens }] }

/-- src/tokenset.rs:336-343 `add_token`: returns the new set and the index of the new token. -/
def addToken (ts : TokenSet) (token : Bytes) : R (TokenSet × Nat) := do
  rassert (!token.isEmpty)
  .ok ({ ts with
          sequences := ts.sequences.filter (fun s => s.string != token),
          tokens := ts.tokens ++ [Token.str token] },
       ts.tokens.length)

/-- The digit loop of src/tokenset.rs:188-193 and 204-209: `k` rounds of
`push(rem & mask); rem >>= shift`. -/
def digitLoop (mask shift : Nat) : Nat → Nat → List Nat
  | 0, _ => []
  | k + 1, rem => (rem &&& mask) :: digitLoop mask shift k (rem >>> shift)

/-- src/tokenset.rs:185-199 `new_bits1`. -/
def newBits1 (p : Processing) (split : Bool) : R TokenSet := do
  let ts ← new 2 p .bits1 split
  .ok ((List.range 256).foldl
    (fun ts c => ts.addSequence [UInt8.ofNat c] (digitLoop 1 1 8 c).reverse) ts)

/-- src/tokenset.rs:201-215 `new_bits2`. -/
def newBits2 (p : Processing) (split : Bool) : R TokenSet := do
  let ts ← new 4 p .bits2 split
  .ok ((List.range 256).foldl
    (fun ts c => ts.addSequence [UInt8.ofNat c] (digitLoop 3 2 4 c).reverse) ts)

/-- src/tokenset.rs:217-224 `new_bits4`. -/
def newBits4 (p : Processing) (split : Bool) : R TokenSet := do
  let ts ← new 16 p .bits4 split
  .ok ((List.range 256).foldl
    (fun ts c => ts.addSequence [UInt8.ofNat c] [c >>> 4, c &&& 15]) ts)

/-- Repeated `add_token`, ignoring the returned index; the loop of `new_bytes`
(src/tokenset.rs:228-230) and of several optimizer functions. -/
def addTokens (ts : TokenSet) : List Bytes → R TokenSet
  | [] => .ok ts
  | s :: ss => do
    let (ts', _) ← ts.addToken s
    addTokens ts' ss

/-- src/tokenset.rs:226-233 `new_bytes`. -/
def newBytes (p : Processing) : R TokenSet := do
  let ts ← new 0 p .bytes true
  ts.addTokens ((List.range 256).map (fun c => [UInt8.ofNat c]))

/-- src/tokenset.rs:321-329 `min_bytes_ext_tokens`. -/
def minBytesExtTokens (ts : TokenSet) : Nat :=
  match ts.tokenType with
  | .bits1 => 2
  | .bits2 => 4
  | .bits4 => 16
  | .bytes => 256
  | .bytesHuff => 3

/-- src/tokenset.rs:345-366 `remove_token`: assert that no sequence uses the token, then
swap-remove it and renumber the moved last token in all sequences. -/
def removeToken (ts : TokenSet) (idx : Nat) : R TokenSet := do
  rassert (ts.sequences.all (fun s => !s.tokens.contains idx))
  let last ← subR ts.tokens.length 1
  if idx = last then
    .ok { ts with tokens := ts.tokens.dropLast }
  else
    let lastToken ← unwrapR ts.tokens.getLast?
    let popped := ts.tokens.dropLast
    -- `self.tokens[token_idx] = last_token`
    if idx < popped.length then
      .ok { ts with
            tokens := popped.set idx lastToken,
            sequences := ts.sequences.map (fun s =>
              { s with tokens := s.tokens.map (fun t => if t = last then idx else t) }) }
    else .error .index

/-- src/tokenset.rs:368-376 `find_token`. -/
def findToken (ts : TokenSet) (s : Bytes) : Option Nat :=
  ts.tokens.findIdx? (fun t => match t with | .str x => x == s | .ext _ => false)

/-- src/tokenset.rs:378-380 `ntokens`. -/
def ntokens (ts : TokenSet) : Nat := ts.tokens.length

/-- src/tokenset.rs:382-393 `n_long_tokens`. -/
def nLongTokens (ts : TokenSet) : Nat :=
  (ts.tokens.filter (fun t => match t with | .str s => decide (s.length > 1) | .ext _ => false)).length

/-- The loop of src/tokenset.rs:418-421: `new_indices[current_pos] = new_pos` over the sorted
index list, starting at position `pos`. -/
def fillIndices : List Nat → Nat → List Nat → R (List Nat)
  | [], _, acc => .ok acc
  | cur :: rest, pos, acc =>
    if cur < acc.length then fillIndices rest (pos + 1) (acc.set cur pos) else .error .index

/-- src/tokenset.rs:423-428: renumber the tokens of one sequence. -/
def renumber (newIdx : List Nat) : List Nat → R (List Nat)
  | [] => .ok []
  | t :: ts => do
    let t' ← getR newIdx t
    let ts' ← renumber newIdx ts
    .ok (t' :: ts')

/-- src/tokenset.rs:423-428: renumber all sequences. -/
def renumberSeqs (newIdx : List Nat) : List Sequence → R (List Sequence)
  | [] => .ok []
  | s :: ss => do
    let toks ← renumber newIdx s.tokens
    let ss' ← renumberSeqs newIdx ss
    .ok ({ s with tokens := toks } :: ss')

/-- src/tokenset.rs:414-432 `sort`.  `sort_by_key` and `sort` are stable sorts, modelled by the
core library's stable `List.mergeSort`; the key of an index is the token stored there. -/
def sort (ts : TokenSet) : R TokenSet := do
  let idxs := (List.range ts.tokens.length).mergeSort
    (fun a b => Token.le (ts.tokens.getD a (.ext 0)) (ts.tokens.getD b (.ext 0)))
  let newIdx ← fillIndices idxs 0 (List.replicate ts.tokens.length 0)
  let seqs ← renumberSeqs newIdx ts.sequences
  .ok { ts with
        tokens := ts.tokens.mergeSort Token.le,
        sequences := seqs.mergeSort Sequence.le }

end TokenSet
end Tokens
