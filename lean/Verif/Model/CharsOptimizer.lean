import Verif.Model.Chars

/-!
Model of `/repo/src/chars/optimizer.rs`.  This file is in the repository but is not part of the program.  The
samples of a sampler are given as texts.  Simplified: numbers are unbounded (`u64`, `u32` indices).
-/

namespace Tokens
namespace Chars

/-! ### Counting characters -/

/-- src/chars/optimizer.rs:14-18: count one character; `counts.resize(idx + 1, 0)`. -/
def countChar (counts : List Nat) (c : Char) : R (List Nat) :=
  addAt (if c.toNat ≥ counts.length then counts ++ List.replicate (c.toNat + 1 - counts.length) 0 else counts)
    c.toNat 1

/-- src/chars/optimizer.rs:12-20: the loops over the samples and their characters. -/
def countAll : Text → List Nat → R (List Nat)
  | [], counts => .ok counts
  | c :: cs, counts => do
    let counts ← countChar counts c
    countAll cs counts

/-- `char::from_u32`. -/
def fromU32 (n : Nat) : Option Char := if n.isValidChar then some (Char.ofNat n) else none

/-- src/chars/optimizer.rs:22-27: the characters that occur, with their counts. -/
def collect : List (Nat × Nat) → R (List (Char × Nat))
  | [] => .ok []
  | (count, idx) :: rest =>
    if count > 0 then do
      let c ← unwrapR (fromU32 idx)
      let out ← collect rest
      .ok ((c, count) :: out)
    else collect rest

/-- src/chars/optimizer.rs:9-28 `count_chars`. -/
def countChars (samples : List Text) : R (List (Char × Nat)) := do
  let counts ← countAll samples.flatten []
  collect counts.zipIdx

/-! ### Encodings -/

/-- `&[(char, u64)]`. -/
abbrev Counts := List (Char × Nat)

/-- src/chars/optimizer.rs:45-53 `struct CharsSplit`. -/
structure CharsSplit where
  lo : Char
  top : Char
  topCount : Nat
  deriving DecidableEq, Repr

/-- src/chars/optimizer.rs:55-63 `HuffmanNode` with its content. -/
inductive HuffmanNode where
  | leaf (count : Nat) (ch : Char)
  | internal (count : Nat) (first second : HuffmanNode)
  deriving Repr

/-- The field `count`. -/
def HuffmanNode.count : HuffmanNode → Nat
  | .leaf c _ => c
  | .internal c _ _ => c

/-- src/chars/optimizer.rs:65-89 `node_to_split`. -/
def nodeToSplit : HuffmanNode → CharsSplit
  | .leaf c ch => { lo := ch, top := ch, topCount := c }
  | .internal _ first second =>
    let f := nodeToSplit first
    let s := nodeToSplit second
    let (top, topCount) :=
      if f.topCount > s.topCount then (f.top, f.topCount) else (s.top, s.topCount)
    { lo := if f.lo ≤ s.lo then f.lo else s.lo, top := top, topCount := topCount }

/-- src/chars/optimizer.rs:101-109: the search for the adjacent pair with the smallest sum, the first
one if there are several.  `i` is the index of the first node of the list, `best` the index and sum
found so far. -/
def bestPair : List HuffmanNode → Nat → Option (Nat × Nat) → Option (Nat × Nat)
  | a :: b :: rest, i, best =>
    let c := a.count + b.count
    let best := match best with
      | none => some (i, c)
      | some (j, m) => if c < m then some (i, c) else some (j, m)
    bestPair (b :: rest) (i + 1) best
  | _, _, best => best

/-- src/chars/optimizer.rs:110-121: merge the nodes `i` and `i + 1`. -/
def mergeAt (nodes : List HuffmanNode) (i : Nat) : R (List HuffmanNode) := do
  let first ← getR nodes i
  let second ← getR nodes (i + 1)
  .ok ((nodes.eraseIdx (i + 1)).set i (.internal (first.count + second.count) first second))

/-- src/chars/optimizer.rs:100-122: the loop `while nodes.len() > parts`.  The first argument bounds
the number of rounds. -/
def mergeLoop (parts : Nat) : Nat → List HuffmanNode → R (List HuffmanNode)
  | 0, nodes => if nodes.length > parts then .error .fuel else .ok nodes
  | fuel + 1, nodes =>
    if nodes.length > parts then do
      let (i, _) ← unwrapR (bestPair nodes 0 none)
      let nodes ← mergeAt nodes i
      mergeLoop parts fuel nodes
    else .ok nodes

/-- src/chars/optimizer.rs:91-130 `optimize_splits`. -/
def optimizeSplits (counts : Counts) (parts : Nat) : R (List CharsSplit) := do
  let nodes ← mergeLoop parts counts.length (counts.map (fun p => .leaf p.2 p.1))
  .ok (nodes.map nodeToSplit)

/-- The order of pairs `(char, u64)`, strictly. -/
def pairLt (a b : Char × Nat) : Bool := decide (a.1 < b.1) || (decide (a.1 = b.1) && decide (a.2 < b.2))

/-- `counts.binary_search(&(ch, 0)).unwrap_err()` on a sorted slice: a panic if the pair is there,
otherwise the number of smaller pairs.  (Only called on slices sorted by character.) -/
def searchErr (counts : Counts) (ch : Char) : R Nat :=
  if counts.contains (ch, 0) then .error .unwrapErr
  else .ok (counts.filter (fun p => pairLt p (ch, 0))).length

/-- `counts[lo..hi]`. -/
def sliceR (counts : Counts) (lo hi : Nat) : R Counts :=
  if lo ≤ hi ∧ hi ≤ counts.length then .ok ((counts.drop lo).take (hi - lo)) else .error .index

/-- src/chars/optimizer.rs:151-156 and 188-195: the bounds of the group of a split; `next` is the
split after it, if there is one. -/
def groupBounds (counts : Counts) (split : CharsSplit) (next : Option CharsSplit) : R (Nat × Nat) := do
  let lo ← searchErr counts split.lo
  let hi ← match next with
    | none => .ok counts.length
    | some s => searchErr counts s.lo
  .ok (lo, hi)

/-- src/chars/optimizer.rs:162-165 and 201-204: the group without its top character. -/
def subCounts (counts : Counts) (split : CharsSplit) (lo hi : Nat) : R Counts := do
  let sub ← sliceR counts lo hi
  let i ← searchErr sub split.top
  if i < sub.length then .ok (sub.eraseIdx i) else .error .index

/-- src/chars/optimizer.rs:148-172: the loop over the splits in `optimize_ext_encoding`; `rec` is the
recursive call, `i` the index of the first split of the list. -/
def extLoop (rec : Counts → R (List (Char × List Nat))) (counts : Counts) :
    List CharsSplit → Nat → List (Char × List Nat) → R (List (Char × List Nat))
  | [], _, encs => .ok encs
  | split :: rest, i, encs => do
    let encs := encs ++ [(split.top, [i])]
    let (lo, hi) ← groupBounds counts split rest.head?
    if hi = lo + 1 then extLoop rec counts rest (i + 1) encs
    else do
      let sub ← subCounts counts split lo hi
      let subEncs ← rec sub
      extLoop rec counts rest (i + 1) (encs ++ subEncs.map (fun p => (p.1, i :: p.2)))

/-- src/chars/optimizer.rs:132-175 `optimize_ext_encoding`.  The first argument bounds the depth of
the recursion. -/
def extEncoding (nExt : Nat) : Nat → Counts → R (List (Char × List Nat))
  | 0, _ => .error .fuel
  | fuel + 1, counts =>
    if counts.length ≤ nExt then
      .ok (counts.zipIdx.map (fun (p, i) => (p.1, [i])))
    else do
      let splits ← optimizeSplits counts nExt
      extLoop (extEncoding nExt fuel) counts splits 0 []

/-- src/chars/optimizer.rs:207-214: add the encodings of one group. -/
def addEncs (ts : CSet) (top : Nat) (encs : List (Char × List Nat)) : CSet :=
  encs.foldl (fun ts p => ts.addEncoding p.1 (top :: p.2)) ts

/-- src/chars/optimizer.rs:185-215: the loop over the top splits; `i` is the index of the first split of the
list. -/
def charsLoop (counts : Counts) (nExt : Nat) : List CharsSplit → Nat → CSet → R CSet
  | [], _, ts => .ok ts
  | split :: rest, i, ts => do
    let ts := ts.addCharToken split.top
    let (lo, hi) ← groupBounds counts split rest.head?
    if hi = lo + 1 then charsLoop counts nExt rest (i + 1) ts
    else do
      let sub ← subCounts counts split lo hi
      let encs ← extEncoding nExt (sub.length + 1) sub
      charsLoop counts nExt rest (i + 1) (addEncs ts (nExt + i) encs)

/-- src/chars/optimizer.rs:177-218 `optimize_chars`. -/
def optimizeChars (counts : Counts) (nChar nExt : Nat) : R CSet := do
  let splits ← optimizeSplits counts nChar
  charsLoop counts nExt splits 0 (CSet.new nExt)

/-- src/chars/optimizer.rs:231-235: the tokens that the characters take. -/
def charsTotal (ts : CSet) : Counts → Nat → R Nat
  | [], total => .ok total
  | (c, n) :: rest, total => do
    let enc ← ts.charEncoding c
    charsTotal ts rest (total + enc.length * n)

/-- src/chars/optimizer.rs:226-241: the loop over the numbers of ext tokens; `best` is `best_token_set` with
`best_total_tokens`. -/
def byExtLoop (counts : Counts) (ntokens : Nat) : List Nat → Option (CSet × Nat) → R (Option (CSet × Nat))
  | [], best => .ok best
  | k :: ks, best => do
    let nChar ← subR ntokens k
    let ts ← optimizeChars counts nChar k
    let total ← charsTotal ts counts 0
    let best := match best with
      | none => some (ts, total)
      | some (b, m) => if total < m then some (ts, total) else some (b, m)
    byExtLoop counts ntokens ks best

/-- src/chars/optimizer.rs:220-244 `optimize_chars_by_ext`. -/
def optimizeCharsByExt (counts : Counts) (ntokens : Nat) : R CSet := do
  let m ← subR ntokens 1
  -- `2..=max_ext_tokens`
  let best ← byExtLoop counts ntokens ((List.range (min m 8 + 1)).drop 2) none
  let (ts, _) ← unwrapR best
  .ok ts

/-! ### The loop that adds tokens -/

/-- src/chars/optimizer.rs:250-255: the loop over the pairs, in the order in which the map gives them. -/
def bestOfPairs (count : Nat → Nat → Nat) : List (Nat × Nat) → Option (Nat × Nat) → Nat → Option (Nat × Nat)
  | [], best, _ => best
  | p :: ps, best, m =>
    if best.isNone ∨ count p.1 p.2 > m then bestOfPairs count ps (some p) (count p.1 p.2)
    else bestOfPairs count ps best m

/-- src/chars/optimizer.rs:246-262 `select_token_bpe`.  `order` is the order in which the map of the pairs is
traversed. -/
def selectTokenBpe (ts : CSet) (st : CStats) (order : List (Nat × Nat)) : R Text := do
  let p ← unwrapR (bestOfPairs st.pairs order none 0)
  let a ← getR ts.tokens p.1
  let s ← unwrapR a.text
  let b ← getR ts.tokens p.2
  let s' ← unwrapR b.text
  .ok (s ++ s')

/-- src/chars/optimizer.rs:279-293: the loop.  `order` gives the order in which the map of the pairs is
traversed in each round; the first argument bounds the number of rounds. -/
def growLoop (order : CStats → List (Nat × Nat)) (samples : List Text) (ntokens : Nat) :
    Nat → CSet → CStats → R (CSet × CStats)
  | 0, ts, st => if ts.tokens.length < ntokens then .error .fuel else .ok (ts, st)
  | fuel + 1, ts, st =>
    if ts.tokens.length < ntokens then do
      let s ← selectTokenBpe ts st (order st)
      let ts := ts.addString s
      let st ← tokenize ts (samples.map utf8Encode)
      growLoop order samples ntokens fuel ts st
    else .ok (ts, st)

/-- src/chars/optimizer.rs:264-301 `optimize_chars_tokens`: the token set and the statistics that are written
to the file. -/
def optimizeCharsTokens (order : CStats → List (Nat × Nat)) (samples : List Text) (ntokens : Nat) :
    R (CSet × CStats) := do
  let counts ← countChars samples
  let ts ← optimizeCharsByExt counts ntokens
  let st ← tokenize ts (samples.map utf8Encode)
  growLoop order samples ntokens ntokens ts st

end Chars
end Tokens
