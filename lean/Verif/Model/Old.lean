import Verif.Model.Prelude

/-!
Model of the first generation of the tokenizer: `/repo/src/tokens.rs` (without JSON), `/repo/src/tokenizer.rs`
and `/repo/src/stats.rs`.  These files are in the repository but are not part of the program
(src/main.rs:11-18 does not declare them).  Simplified: numbers are unbounded, except for the keys of the
pair table, which are 32 bits wide.
-/

namespace Tokens
namespace Old

/-- src/tokens.rs:7-25 `enum LiteralEncoding`. -/
inductive LiteralEncoding where
  | bits1 | bits2 | bits4 | all | dist2 | dist4 | dist8 | hex
  deriving DecidableEq, Repr

/-- src/tokens.rs:47-58 `literal_cost`. -/
def LiteralEncoding.literalCost : LiteralEncoding → Nat
  | .all => 256
  | .bits1 => 8
  | .bits2 => 4
  | .bits4 => 2
  | .dist2 => 2
  | .dist4 => 4
  | .dist8 => 8
  | .hex => 3

/-- src/tokens.rs:60-71 `reserved_tokens`. -/
def LiteralEncoding.reservedTokens : LiteralEncoding → Nat
  | .all => 0
  | .bits1 => 2
  | .bits2 => 4
  | .bits4 => 16
  | .dist2 => 1
  | .dist4 => 1
  | .dist8 => 1
  | .hex => 0

/-- src/tokens.rs:73-84 `tokens_in_literal`. -/
def LiteralEncoding.tokensInLiteral : LiteralEncoding → Nat
  | .all => 1
  | .bits1 => 8
  | .bits2 => 4
  | .bits4 => 2
  | .dist2 => 1
  | .dist4 => 1
  | .dist8 => 1
  | .hex => 3

/-- src/tokens.rs:87-92 `enum TokenIdx`. -/
inductive TokenIdx where
  | token (i : Nat)
  | literal (b : UInt8)
  | none
  deriving DecidableEq, Repr

/-- src/tokens.rs:94-100 `struct Token`. -/
structure OToken where
  string : Bytes
  isMandatory : Bool
  suffix : TokenIdx
  deriving DecidableEq, Repr

/-- src/tokens.rs:112-125 `struct TokenSet`. -/
structure OSet where
  tokens : List OToken
  byString : StrMap
  literal : LiteralEncoding

namespace OSet

/-- src/tokens.rs:226-233 `add_mandatory_token`. -/
def addMandatory (ts : OSet) (s : Bytes) : R OSet := do
  rassert (ts.byString s).isNone
  .ok { ts with
    tokens := ts.tokens ++ [{ string := s, isMandatory := true, suffix := .none }]
    byString := ts.byString.insert s ts.tokens.length }

/-- A loop of `add_mandatory_token`. -/
def addAllMandatory : OSet → List Bytes → R OSet
  | ts, [] => .ok ts
  | ts, s :: ss => do
    let ts' ← ts.addMandatory s
    addAllMandatory ts' ss

/-- src/tokens.rs:136-152: the tokens that a new set has. -/
def mandatory : LiteralEncoding → List Bytes
  | .hex => [[0x10], [48], [49], [50], [51], [52], [53], [54], [55], [56], [57],
      [97], [98], [99], [100], [101], [102]]
  | .all => allBytes.map ([·])
  | _ => []

/-- src/tokens.rs:128-155 `TokenSet::new`. -/
def new (le : LiteralEncoding) : R OSet :=
  addAllMandatory { tokens := [], byString := fun _ => none, literal := le } (mandatory le)

/-- src/tokens.rs:161-163 `ntokens`. -/
def ntokens (ts : OSet) : Nat := ts.tokens.length + ts.literal.reservedTokens

/-- src/tokens.rs:235-247 `add_token`. -/
def addToken (ts : OSet) (s : Bytes) : R OSet :=
  match ts.byString s with
  | some k => do
    let t ← getR ts.tokens k
    rassert t.isMandatory
    .ok ts
  | none => .ok { ts with
      tokens := ts.tokens ++ [{ string := s, isMandatory := false, suffix := .none }]
      byString := ts.byString.insert s ts.tokens.length }

/-- src/tokens.rs:255-259: the table of the strings, made again from the tokens from index `k` on. -/
def reindex : List OToken → Nat → StrMap → StrMap
  | [], _, m => m
  | t :: ts, k, m => reindex ts (k + 1) (m.insert t.string k)

/-- src/tokens.rs:249-260 `remove_token`. -/
def removeToken (ts : OSet) (s : Bytes) : R OSet := do
  let k ← unwrapR (ts.byString s)
  let t ← getR ts.tokens k
  rassert (!t.isMandatory)
  let tokens := ts.tokens.eraseIdx k
  .ok { ts with tokens := tokens, byString := reindex tokens 0 (fun _ => none) }

/-- src/tokens.rs:303-316: the suffix of one token.  `len() - 1` is below zero for an empty string. -/
def suffixOf (m : StrMap) (s : Bytes) : R TokenIdx :=
  match s with
  | [] => .error .underflow
  | [_] => .ok .none
  | b :: c :: rest =>
    match firstSuffix m (c :: rest) with
    | some k => .ok (.token k)
    | none => .ok (.literal ((c :: rest).getLastD b))

/-- src/tokens.rs:301-318 `generate_suffixes`: the loop over the tokens. -/
def suffixes (m : StrMap) : List OToken → R (List OToken)
  | [] => .ok []
  | t :: ts => do
    let x ← suffixOf m t.string
    let rest ← suffixes m ts
    .ok ({ t with suffix := x } :: rest)

/-- src/tokens.rs:301-318 `generate_suffixes`. -/
def generateSuffixes (ts : OSet) : R OSet := do
  let tokens ← suffixes ts.byString ts.tokens
  .ok { ts with tokens := tokens }

end OSet

/-! ### `tokenizer.rs` -/

/-- src/tokenizer.rs:10-25 `struct SuffixState` before its table is filled in. -/
structure Proto where
  suffix : Bytes
  tokenIdx : TokenIdx

/-- src/tokenizer.rs:10-25 `struct SuffixState`; `next: [usize; 256]` is a function on bytes. -/
structure State where
  suffix : Bytes
  tokenIdx : TokenIdx
  next : UInt8 → Nat

/-- src/tokenizer.rs:65-72: the longest token at the end of `pre`, or its last byte. -/
def endToken (byString : StrMap) (pre : Bytes) : TokenIdx :=
  match firstSuffix byString pre with
  | some k => .token k
  | none => .literal (pre.getLastD 0)

/-- src/tokenizer.rs:57-78: the loop over `end in 1..=len` for one token; the list holds the remaining
values of `end`. -/
def addPrefixes (byString : StrMap) (s : Bytes) : List Nat → List Proto → StrMap → List Proto × StrMap
  | [], states, m => (states, m)
  | e :: es, states, m =>
    let pre := s.take e
    if (m pre).isSome then addPrefixes byString s es states m
    else addPrefixes byString s es (states ++ [{ suffix := pre, tokenIdx := endToken byString pre }])
      (m.insert pre states.length)

/-- src/tokenizer.rs:56-79: the loop over the tokens. -/
def addAllPrefixes (byString : StrMap) : List OToken → List Proto → StrMap → List Proto × StrMap
  | [], states, m => (states, m)
  | t :: ts, states, m =>
    let r := addPrefixes byString t.string ((List.range t.string.length).map (· + 1)) states m
    addAllPrefixes byString ts r.1 r.2

/-- src/tokenizer.rs:82-90: the loop over the bytes. -/
def addLiterals : List UInt8 → List Proto → StrMap → List Proto × StrMap
  | [], states, m => (states, m)
  | b :: bs, states, m =>
    if (m [b]).isSome then addLiterals bs states m
    else addLiterals bs (states ++ [{ suffix := [b], tokenIdx := .literal b }]) (m.insert [b] states.length)

/-- src/tokenizer.rs:92-113: fill in the tables; `suffix_id.unwrap()`. -/
def fillNext (m : StrMap) : List Proto → R (List State)
  | [] => .ok []
  | st :: rest => do
    let _ ← unwrapR (if allBytes.all (fun b => (firstSuffix m (st.suffix ++ [b])).isSome) then some () else none)
    let rest' ← fillNext m rest
    .ok ({ suffix := st.suffix, tokenIdx := st.tokenIdx,
           next := fun b => (firstSuffix m (st.suffix ++ [b])).getD 0 } :: rest')

/-- src/tokenizer.rs:48-116 `create_suffix_states`. -/
def createStates (ts : OSet) : R (List State) :=
  let a := addAllPrefixes ts.byString ts.tokens [{ suffix := [], tokenIdx := .none }]
    (StrMap.insert (fun _ => none) [] 0)
  let b := addLiterals allBytes a.1 a.2
  fillNext b.2 b.1

/-- src/tokenizer.rs:32-35 `struct Tokenizer`. -/
structure Tokenizer where
  set : OSet
  states : List State

/-- src/tokenizer.rs:38-46 `Tokenizer::new`. -/
def Tokenizer.new (ts : OSet) : R Tokenizer := do
  let ts' ← ts.generateSuffixes
  let states ← createStates ts'
  .ok { set := ts', states := states }

/-- src/tokenizer.rs:27-30 `struct DynState`. -/
structure DynState where
  cost : Nat
  idx : TokenIdx
  deriving DecidableEq, Repr

/-- src/tokenizer.rs:153-181: the `loop` along the suffixes of a token.  The first argument bounds the
number of rounds. -/
def chain (tokens : List OToken) (lc : Nat) (costs : List DynState) : Nat → OToken → DynState → R DynState
  | 0, _, _ => .error .fuel
  | f + 1, token, best =>
    match token.suffix with
    | .token id => do
      let token' ← getR tokens id
      let at_ ← subR costs.length token'.string.length
      let prev ← getR costs at_
      let cost := prev.cost + 1
      chain tokens lc costs f token' (if cost < best.cost then { cost := cost, idx := .token id } else best)
    | .literal b => do
      let at_ ← subR costs.length 1
      let prev ← getR costs at_
      let cost := prev.cost + lc
      .ok (if cost < best.cost then { cost := cost, idx := .literal b } else best)
    | .none => .ok best

/-- src/tokenizer.rs:134-184: the best end of the text at a state. -/
def bestEnd (tokens : List OToken) (lc : Nat) (costs : List DynState) (state : State) : R DynState :=
  match state.tokenIdx with
  | .literal b => do
    let prev ← unwrapR costs.getLast?
    .ok { cost := prev.cost + lc, idx := .literal b }
  | .token id => do
    let token ← getR tokens id
    let at_ ← subR costs.length token.string.length
    let prev ← getR costs at_
    chain tokens lc costs (token.string.length + 1) token { cost := prev.cost + 1, idx := .token id }
  | .none => .error .unreachable

/-- src/tokenizer.rs:131-187: the loop over the bytes. -/
def sliceLoop (tk : Tokenizer) : Bytes → State → List DynState → R (List DynState)
  | [], _, costs => .ok costs
  | byte :: rest, state, costs => do
    let state' ← getR tk.states (state.next byte)
    let best ← bestEnd tk.set.tokens tk.set.literal.literalCost costs state'
    sliceLoop tk rest state' (costs ++ [best])

/-! ### `stats.rs` -/

/-- src/stats.rs:5-15 `struct TokenStats`.  `pairCount` is the number stored under a key, 0 if there is
none. -/
structure OStats where
  literalCost : Nat
  tokenCount : List Nat
  pairCount : Nat → Nat
  literalCount : List Nat
  scannedBytes : Nat

/-- src/stats.rs:17-28 `TokenStats::new`. -/
def OStats.new (ntokens literalCost : Nat) : OStats :=
  { literalCost := literalCost, tokenCount := List.replicate ntokens 0, pairCount := fun _ => 0,
    literalCount := List.replicate 256 0, scannedBytes := 0 }

/-- src/stats.rs:31-33: the loop over the token counts, from index `i` on. -/
def addLists : List Nat → List Nat → R (List Nat)
  | [], _ => .ok []
  | _ :: _, [] => .error .index
  | a :: as, b :: bs => do
    let rest ← addLists as bs
    .ok ((a + b) :: rest)

/-- src/stats.rs:30-41 `add`. -/
def OStats.add (s o : OStats) : R OStats := do
  let tc ← addLists s.tokenCount o.tokenCount
  let lc ← addLists s.literalCount o.literalCount
  .ok { s with tokenCount := tc, pairCount := fun k => s.pairCount k + o.pairCount k, literalCount := lc,
               scannedBytes := s.scannedBytes + o.scannedBytes }

/-- src/stats.rs:43-45 `total_literals`. -/
def OStats.totalLiterals (s : OStats) : Nat := s.literalCount.sum

/-- src/stats.rs:47-49 `total_tokens`. -/
def OStats.totalTokens (s : OStats) : Nat := s.tokenCount.sum

/-- src/stats.rs:51-53 `cost`. -/
def OStats.cost (s : OStats) : Nat := s.tokenCount.sum + s.literalCost * s.literalCount.sum

/-- src/tokenizer.rs:205: `(id << 16) + next_id` at type `u32`: bits beyond the 32nd are lost, and an
addition beyond 2^32 - 1 panics in a build with overflow checks (in the other builds it wraps around, and
the keys of different pairs may be equal). -/
def pairKey (id next : Nat) : R Nat :=
  let k := (id <<< 16) % 2 ^ 32 + next
  if k < 2 ^ 32 then .ok k else .error .overflow

/-- src/tokenizer.rs:207: `*pair_count.entry(key).or_insert(0) += 1`. -/
def bumpPair (m : Nat → Nat) (key : Nat) : Nat → Nat := fun k => if k = key then m k + 1 else m k

/-- src/tokenizer.rs:202-210: count the pair of the token `id` and the token after it. -/
def bumpNext (pairs : Bool) (next : TokenIdx) (id : Nat) (m : Nat → Nat) : R (Nat → Nat) :=
  match pairs, next with
  | true, .token n => do
    let k ← pairKey id n
    .ok (bumpPair m k)
  | _, _ => .ok m

/-- src/tokenizer.rs:196-223: the `while pos > 0` loop of `update_stats`.  The first argument bounds the
number of rounds. -/
def traceback (tokens : List OToken) (costs : List DynState) (pairs : Bool) :
    Nat → Nat → TokenIdx → OStats → R OStats
  | 0, pos, _, st => if pos = 0 then .ok st else .error .fuel
  | f + 1, pos, next, st =>
    if pos = 0 then .ok st
    else do
      let cs ← getR costs pos
      match cs.idx with
      | .token id => do
        let tc ← addAt st.tokenCount id 1
        let pc ← bumpNext pairs next id st.pairCount
        let token ← getR tokens id
        let pos' ← subR pos token.string.length
        traceback tokens costs pairs f pos' cs.idx { st with tokenCount := tc, pairCount := pc }
      | .literal b => do
        let lc ← addAt st.literalCount b.toNat 1
        traceback tokens costs pairs f (pos - 1) cs.idx { st with literalCount := lc }
      | .none => .error .unreachable

/-- src/tokenizer.rs:118-224 `process_slice` and `update_stats`. -/
def processSlice (tk : Tokenizer) (bytes : Bytes) (pairs : Bool) (st : OStats) : R OStats := do
  let start ← getR tk.states 0
  let costs ← sliceLoop tk bytes start [{ cost := 0, idx := .none }]
  traceback tk.set.tokens costs pairs bytes.length bytes.length .none
    { st with scannedBytes := st.scannedBytes + bytes.length }

/-- src/tokenizer.rs:237-255: what one worker does with its samples: the assertion, then `process_slice`. -/
def workerLoop (tk : Tokenizer) (pairs : Bool) : List Bytes → OStats → R OStats
  | [], st => .ok st
  | s :: ss, st => do
    rassert (!s.isEmpty)
    let st' ← processSlice tk s pairs st
    workerLoop tk pairs ss st'

/-- src/tokenizer.rs:305-308: the results are added in the order in which they arrive. -/
def collect : List OStats → OStats → R OStats
  | [], st => .ok st
  | r :: rs, st => do
    let st' ← st.add r
    collect rs st'

/-- src/tokenizer.rs:261-333 `tokenize_file`, seen from outside: every sample is taken by one worker
(`shares`: the samples of each worker, in the order in which it takes them), every worker sends its
statistics, and they are added in some order (`order`).  Simplified: the channels, the mutex and the
threads are as in Model/Batch; here only the runs in which all workers end. -/
inductive TokenizeFile (ts : OSet) (samples : List Bytes) (pairs : Bool) (nthreads : Nat) : R OStats → Prop where
  | newPanic {e : Err} (h : Tokenizer.new ts = .error e) : TokenizeFile ts samples pairs nthreads (.error e)
  | run {tk : Tokenizer} {shares : List (List Bytes)} {results order : List OStats} (h : Tokenizer.new ts = .ok tk) (hn : shares.length = nthreads)
      (hs : shares.flatten.Perm samples)
      (hw : shares.map (fun ss => workerLoop tk pairs ss
        (OStats.new ts.tokens.length ts.literal.literalCost)) = results.map Except.ok)
      (ho : order.Perm results) :
      TokenizeFile ts samples pairs nthreads (collect order (OStats.new ts.tokens.length ts.literal.literalCost))

end Old
end Tokens
