import Verif.Model.Stats

/-!
Model of `/repo/src/optimize_bytes.rs`.
-/

namespace Tokens
namespace OptimizeBytes

/-- src/optimize_bytes.rs:9-11 `trait BytesOptimizer`: the one function of an implementation. -/
abbrev BytesOptimizer := TokenStats → Nat → R TokenSet

/-! ### SimpleBytesOptimizer -/

/-- An array `[T; 256]` indexed by a byte (such an index is never out of bounds). -/
abbrev ByteArr (α : Type) := UInt8 → α

/-- `a[b] = v`. -/
def ByteArr.set {α : Type} (a : ByteArr α) (b : UInt8) (v : α) : ByteArr α :=
  fun x => if x = b then v else a x

/-- src/optimize_bytes.rs:22-29: counts of single-byte tokens (`i` is the `token_id` of the first
token of the list). -/
def countTokens (counts : List Nat) : List Token → Nat → ByteArr Nat → R (ByteArr Nat)
  | [], _, a => .ok a
  | .str [b] :: ts, i, a => do
    let c ← getR counts i
    countTokens counts ts (i + 1) (a.set b c)
  | _ :: ts, i, a => countTokens counts ts (i + 1) a

/-- src/optimize_bytes.rs:31-35: counts of single-byte sequences. -/
def countSeqs (counts : List Nat) : List Sequence → Nat → ByteArr Nat → R (ByteArr Nat)
  | [], _, a => .ok a
  | ⟨[b], _⟩ :: qs, i, a => do
    let c ← getR counts i
    countSeqs counts qs (i + 1) (a.set b c)
  | _ :: qs, i, a => countSeqs counts qs (i + 1) a

/-- `v[..n]`. -/
def prefixR {α : Type} (l : List α) (n : Nat) : R (List α) :=
  if n ≤ l.length then .ok (l.take n) else .error .index

/-- The strings of the tokens longer than one byte, in order (the loops of
src/optimize_bytes.rs:58-64 and 130-136). -/
def longStrings (toks : List Token) : List Bytes :=
  toks.filterMap (fun t => match t with
    | .str s => if s.length > 1 then some s else none
    | .ext _ => none)

/-- src/optimize_bytes.rs:41-52: the fresh set of the same type. -/
def freshBits (ts : TokenSet) : R TokenSet :=
  match ts.tokenType with
  | .bits1 => TokenSet.newBits1 ts.processing ts.splitParagraphs
  | .bits2 => TokenSet.newBits2 ts.processing ts.splitParagraphs
  | .bits4 => TokenSet.newBits4 ts.processing ts.splitParagraphs
  | _ => .error .panic

/-- src/optimize_bytes.rs:37-38: all bytes, by descending count (`sort_by_key` is stable). -/
def byCount (counts : ByteArr Nat) : List UInt8 :=
  allBytes.mergeSort (fun a b => decide (counts b ≤ counts a))

/-- src/optimize_bytes.rs:15-68 `SimpleBytesOptimizer::optimize_bytes`. -/
def simple : BytesOptimizer := fun st nByteExt => do
  let n ← subR nByteExt st.tokenSet.nExt
  let counts ← countTokens st.tokenCounts st.tokenSet.tokens 0 (fun _ => 0)
  let counts ← countSeqs st.seqCounts st.tokenSet.sequences 0 counts
  let selected ← prefixR (byCount counts) n
  let ts ← freshBits st.tokenSet
  let ts ← ts.addTokens (selected.map (fun b => [b]))
  ts.addTokens (longStrings st.tokenSet.tokens)

/-- src/optimize_bytes.rs:72-76 `NoopBytesOptimizer::optimize_bytes`. -/
def noop : BytesOptimizer := fun st _ => .ok st.tokenSet

/-! ### Huffman-like byte encodings -/

/-- `&[(u8, u64)]`. -/
abbrev Counts := List (UInt8 × Nat)

/-- src/optimize_bytes.rs:144-151 `struct CharsSplit`. -/
structure CharsSplit where
  lo : UInt8
  top : UInt8
  topCount : Nat
  deriving DecidableEq, Repr

/-- src/optimize_bytes.rs:153-161 `HuffmanNode` with its content. -/
inductive HuffmanNode where
  | leaf (count : Nat) (ch : UInt8)
  | internal (count : Nat) (first second : HuffmanNode)
  deriving Repr

/-- The field `count`. -/
def HuffmanNode.count : HuffmanNode → Nat
  | .leaf c _ => c
  | .internal c _ _ => c

/-- src/optimize_bytes.rs:163-187 `node_to_split`. -/
def nodeToSplit : HuffmanNode → CharsSplit
  | .leaf c ch => { lo := ch, top := ch, topCount := c }
  | .internal _ first second =>
    let f := nodeToSplit first
    let s := nodeToSplit second
    let (top, topCount) :=
      if f.topCount > s.topCount then (f.top, f.topCount) else (s.top, s.topCount)
    { lo := if f.lo ≤ s.lo then f.lo else s.lo, top := top, topCount := topCount }

/-- src/optimize_bytes.rs:202-210: the search for the adjacent pair with the smallest sum, the first
one if there are several.  `i` is the index of the first node of the list, `best` the index and sum
found so far. -/
def bestPair : List HuffmanNode → Nat → Option (Nat × Nat) → Option (Nat × Nat)
  | a :: b :: rest, i, best =>
    let c := a.count + b.count
    let best := match best with
      | none => some (i, c)
      | some (j, m) => if c < m then some (i, c) else some (j, m)
    bestPair (b :: rest) (i + 1) best
  | _, _, best => best

/-- src/optimize_bytes.rs:211-222: merge the nodes `i` and `i + 1`. -/
def mergeAt (nodes : List HuffmanNode) (i : Nat) : R (List HuffmanNode) := do
  let first ← getR nodes i
  let second ← getR nodes (i + 1)
  .ok ((nodes.eraseIdx (i + 1)).set i (.internal (first.count + second.count) first second))

/-- src/optimize_bytes.rs:201-223: the loop `while nodes.len() > parts`.  The first argument bounds
the number of rounds. -/
def mergeLoop (parts : Nat) : Nat → List HuffmanNode → R (List HuffmanNode)
  | 0, nodes => if nodes.length > parts then .error .fuel else .ok nodes
  | fuel + 1, nodes =>
    if nodes.length > parts then do
      let (i, _) ← unwrapR (bestPair nodes 0 none)
      let nodes ← mergeAt nodes i
      mergeLoop parts fuel nodes
    else .ok nodes

/-- src/optimize_bytes.rs:192-231 `optimize_splits`. -/
def optimizeSplits (counts : Counts) (parts : Nat) : R (List CharsSplit) := do
  let nodes ← mergeLoop parts counts.length (counts.map (fun p => .leaf p.2 p.1))
  .ok (nodes.map nodeToSplit)

/-- The order of pairs `(u8, u64)`, strictly. -/
def pairLt (a b : UInt8 × Nat) : Bool := decide (a.1 < b.1) || (decide (a.1 = b.1) && decide (a.2 < b.2))

/-- `counts.binary_search(&(ch, 0)).unwrap_err()` on a sorted slice: a panic if the pair is there,
otherwise the number of smaller pairs.  (Only called on slices sorted by byte.) -/
def searchErr (counts : Counts) (ch : UInt8) : R Nat :=
  if counts.contains (ch, 0) then .error .unwrapErr
  else .ok (counts.filter (fun p => pairLt p (ch, 0))).length

/-- `counts[lo..hi]`. -/
def sliceR (counts : Counts) (lo hi : Nat) : R Counts :=
  if lo ≤ hi ∧ hi ≤ counts.length then .ok ((counts.drop lo).take (hi - lo)) else .error .index

/-- src/optimize_bytes.rs:250-255 and 289-296: the bounds of the group of a split; `next` is the
split after it, if there is one. -/
def groupBounds (counts : Counts) (split : CharsSplit) (next : Option CharsSplit) : R (Nat × Nat) := do
  let lo ← searchErr counts split.lo
  let hi ← match next with
    | none => .ok counts.length
    | some s => searchErr counts s.lo
  .ok (lo, hi)

/-- src/optimize_bytes.rs:261-264 and 302-305: the group without its top byte. -/
def subCounts (counts : Counts) (split : CharsSplit) (lo hi : Nat) : R Counts := do
  let sub ← sliceR counts lo hi
  let i ← searchErr sub split.top
  if i < sub.length then .ok (sub.eraseIdx i) else .error .index

/-- src/optimize_bytes.rs:245-271: the loop over the splits in `optimize_ext_encoding`; `rec` is the
recursive call, `i` the index of the first split of the list. -/
def extLoop (rec : Counts → R (List (UInt8 × List Nat))) (counts : Counts) :
    List CharsSplit → Nat → List (UInt8 × List Nat) → R (List (UInt8 × List Nat))
  | [], _, encs => .ok encs
  | split :: rest, i, encs => do
    let encs := encs ++ [(split.top, [i])]
    let (lo, hi) ← groupBounds counts split rest.head?
    if hi = lo + 1 then extLoop rec counts rest (i + 1) encs
    else do
      let sub ← subCounts counts split lo hi
      let subEncs ← rec sub
      extLoop rec counts rest (i + 1) (encs ++ subEncs.map (fun p => (p.1, i :: p.2)))

/-- src/optimize_bytes.rs:234-274 `optimize_ext_encoding`.  The first argument bounds the depth of
the recursion. -/
def extEncoding (nExt : Nat) : Nat → Counts → R (List (UInt8 × List Nat))
  | 0, _ => .error .fuel
  | fuel + 1, counts =>
    if counts.length ≤ nExt then
      .ok (counts.zipIdx.map (fun (p, i) => (p.1, [i])))
    else do
      let splits ← optimizeSplits counts nExt
      extLoop (extEncoding nExt fuel) counts splits 0 []

/-- src/optimize_bytes.rs:307-311: add the sequences of one group. -/
def addSeqs (ts : TokenSet) (top : Nat) (encs : List (UInt8 × List Nat)) : TokenSet :=
  encs.foldl (fun ts p => ts.addSequence [p.1] (top :: p.2)) ts

/-- src/optimize_bytes.rs:286-312: the loop over the top splits. -/
def tokensetLoop (counts : Counts) (nExt : Nat) : List CharsSplit → TokenSet → R TokenSet
  | [], ts => .ok ts
  | split :: rest, ts => do
    let (ts, top) ← ts.addToken [split.top]
    let (lo, hi) ← groupBounds counts split rest.head?
    if hi = lo + 1 then tokensetLoop counts nExt rest ts
    else do
      let sub ← subCounts counts split lo hi
      let encs ← extEncoding nExt (sub.length + 1) sub
      tokensetLoop counts nExt rest (addSeqs ts top encs)

/-- src/optimize_bytes.rs:276-315 `optimize_bytes_tokenset`. -/
def bytesTokenset (counts : Counts) (nChar nExt : Nat) (p : Processing) : R TokenSet := do
  let ts ← TokenSet.new nExt p .bytesHuff true
  let splits ← optimizeSplits counts nChar
  tokensetLoop counts nExt splits ts

/-- `counts[b as usize] = (b, c)`. -/
def setCount (counts : Counts) (b : UInt8) (c : Nat) : Counts := counts.set b.toNat (b, c)

/-- src/optimize_bytes.rs:83-89: counts from the tokens (zipped with their counts). -/
def huffTokens : List (Token × Nat) → Counts → Counts
  | [], cs => cs
  | (.str [b], c) :: l, cs => huffTokens l (setCount cs b (c + 1))
  | _ :: l, cs => huffTokens l cs

/-- src/optimize_bytes.rs:91-94: counts from the sequences; a panic unless they spell one byte. -/
def huffSeqs : List (Sequence × Nat) → Counts → R Counts
  | [], cs => .ok cs
  | (q, c) :: l, cs =>
    match q.string with
    | [b] => huffSeqs l (setCount cs b (c + 1))
    | _ => .error .assertFailed

/-- src/optimize_bytes.rs:82-94: the counts; all bytes start at 1. -/
def huffCounts (st : TokenStats) : R Counts :=
  huffSeqs (st.tokenSet.sequences.zip st.seqCounts)
    (huffTokens (st.tokenSet.tokens.zip st.tokenCounts) (allBytes.map (fun b => (b, 1))))

/-- `counts[b as usize].1`. -/
def countOf (counts : Counts) (b : UInt8) : R Nat := do
  let p ← getR counts b.toNat
  .ok p.2

/-- src/optimize_bytes.rs:106-113: the tokens' part of `total`. -/
def costTokens (counts : Counts) : List Token → Nat → R Nat
  | [], total => .ok total
  | .ext _ :: ts, total => costTokens counts ts total
  | .str s :: ts, total =>
    match s with
    | [b] => do
      let c ← countOf counts b
      costTokens counts ts (total + c)
    | _ => .error .assertFailed

/-- src/optimize_bytes.rs:115-118: the sequences' part of `total`. -/
def costSeqs (counts : Counts) : List Sequence → Nat → R Nat
  | [], total => .ok total
  | q :: qs, total =>
    match q.string with
    | [b] => do
      let c ← countOf counts b
      costSeqs counts qs (total + c * q.tokens.length)
    | _ => .error .assertFailed

/-- src/optimize_bytes.rs:96-124: the loop over the numbers of ext tokens; `best` is
`best_token_set` with `best_total_tokens`. -/
def huffLoop (counts : Counts) (n : Nat) (p : Processing) :
    List Nat → Option (TokenSet × Nat) → R (Option (TokenSet × Nat))
  | [], best => .ok best
  | k :: ks, best => do
    let nByte ← subR n k
    let ts ← bytesTokenset counts nByte k p
    let total ← costTokens counts ts.tokens 0
    let total ← costSeqs counts ts.sequences total
    let best := match best with
      | none => some (ts, total)
      | some (b, m) => if total < m then some (ts, total) else some (b, m)
    huffLoop counts n p ks best

/-- src/optimize_bytes.rs:81-139 `HuffOptimizer::optimize_bytes`. -/
def huff : BytesOptimizer := fun st n => do
  let counts ← huffCounts st
  let m ← subR n 1
  let maxExt := min m 10
  -- `2..=max_ext_tokens`
  let best ← huffLoop counts n st.tokenSet.processing ((List.range (maxExt + 1)).drop 2) none
  let (ts, _) ← unwrapR best
  ts.addTokens (longStrings st.tokenSet.tokens)

end OptimizeBytes
end Tokens
