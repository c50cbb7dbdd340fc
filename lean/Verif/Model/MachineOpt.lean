import Verif.Model.Machine
import Verif.Model.Optimize

/-!
The code of `/repo/src/optimize.rs` and `/repo/src/optimize_bytes.rs` with the machine arithmetic of `u64`
and `i64` in the place of that of natural numbers and integers.

The functions are those of `Verif/Model/OptimizeBytes.lean` and `Verif/Model/Optimize.lean`, except that
every `+`, `+=`, `*` on a `u64`, every `-` on an `i64` and every `as i64` is the operation of the build
(`Arith`).  Sums of `usize` values (lengths, indices, removal counts) are not concerned.
-/

namespace Tokens
namespace MachineOpt
open OptimizeBytes Batch Optimize

/-- The arithmetic of a build. -/
structure Arith where
  /-- `a + b` on `u64` -/
  add : Machine.Adder
  /-- `a * b` on `u64` -/
  mul : Nat → Nat → R Nat
  /-- `-a` on `i64` -/
  neg : Int → R Int
  /-- `a - b` on `i64` -/
  sub : Int → Int → R Int

/-- The value of the 64 low bits of an integer, read as an `i64`. -/
def wrapI64 (x : Int) : Int := (x + 2 ^ 63) % 2 ^ 64 - 2 ^ 63

/-- `n as i64` for a `u64` (never a panic). -/
def toI64 (n : Nat) : Int := wrapI64 n

/-- Overflow checks on (`cargo build`, `cargo test`). -/
def checked : Arith where
  add := Machine.checkedAdd
  mul := fun a b => if a * b < 2 ^ 64 then .ok (a * b) else .error .overflow
  neg := fun a => if -2 ^ 63 ≤ -a ∧ -a < 2 ^ 63 then .ok (-a) else .error .overflow
  sub := fun a b => if -2 ^ 63 ≤ a - b ∧ a - b < 2 ^ 63 then .ok (a - b) else .error .overflow

/-- Overflow checks off (`cargo build --release`). -/
def wrapping : Arith where
  add := Machine.wrappingAdd
  mul := fun a b => .ok (a * b % 2 ^ 64)
  neg := fun a => .ok (wrapI64 (-a))
  sub := fun a b => .ok (wrapI64 (a - b))

/-! ### src/optimize_bytes.rs -/

/-- `l.sort_by_key(key)` (stable) where computing a key may panic.  (Rust computes no key if there are
fewer than two elements; here the key is computed for all.) -/
def sortByKey {α : Type} (key : α → R Int) (l : List α) : R (List α) := do
  let keyed ← l.mapM (fun a => do
    let k ← key a
    .ok (a, k))
  .ok ((keyed.mergeSort (fun x y => decide (x.2 ≤ y.2))).map Prod.fst)

/-- src/optimize_bytes.rs:22-29, with `as i64`. -/
def countTokens (counts : List Nat) : List Token → Nat → ByteArr Int → R (ByteArr Int)
  | [], _, a => .ok a
  | .str [b] :: ts, i, a => do
    let c ← getR counts i
    countTokens counts ts (i + 1) (a.set b (toI64 c))
  | _ :: ts, i, a => countTokens counts ts (i + 1) a

/-- src/optimize_bytes.rs:31-35, with `as i64`. -/
def countSeqs (counts : List Nat) : List Sequence → Nat → ByteArr Int → R (ByteArr Int)
  | [], _, a => .ok a
  | ⟨[b], _⟩ :: qs, i, a => do
    let c ← getR counts i
    countSeqs counts qs (i + 1) (a.set b (toI64 c))
  | _ :: qs, i, a => countSeqs counts qs (i + 1) a

/-- src/optimize_bytes.rs:15-68 `SimpleBytesOptimizer::optimize_bytes`. -/
def simple (A : Arith) : BytesOptimizer := fun st nByteExt => do
  let n ← subR nByteExt st.tokenSet.nExt
  let counts ← countTokens st.tokenCounts st.tokenSet.tokens 0 (fun _ => 0)
  let counts ← countSeqs st.seqCounts st.tokenSet.sequences 0 counts
  let bytes ← sortByKey (fun b => A.neg (counts b)) allBytes
  let selected ← prefixR bytes n
  let ts ← freshBits st.tokenSet
  let ts ← ts.addTokens (selected.map (fun b => [b]))
  ts.addTokens (longStrings st.tokenSet.tokens)

/-- src/optimize_bytes.rs:202-210. -/
def bestPair (A : Arith) : List HuffmanNode → Nat → Option (Nat × Nat) → R (Option (Nat × Nat))
  | a :: b :: rest, i, best => do
    let c ← A.add a.count b.count
    let best := match best with
      | none => some (i, c)
      | some (j, m) => if c < m then some (i, c) else some (j, m)
    bestPair A (b :: rest) (i + 1) best
  | _, _, best => .ok best

/-- src/optimize_bytes.rs:211-222. -/
def mergeAt (A : Arith) (nodes : List HuffmanNode) (i : Nat) : R (List HuffmanNode) := do
  let first ← getR nodes i
  let second ← getR nodes (i + 1)
  let c ← A.add first.count second.count
  .ok ((nodes.eraseIdx (i + 1)).set i (.internal c first second))

/-- src/optimize_bytes.rs:201-223. -/
def mergeLoop (A : Arith) (parts : Nat) : Nat → List HuffmanNode → R (List HuffmanNode)
  | 0, nodes => if nodes.length > parts then .error .fuel else .ok nodes
  | fuel + 1, nodes =>
    if nodes.length > parts then do
      let best ← bestPair A nodes 0 none
      let (i, _) ← unwrapR best
      let nodes ← mergeAt A nodes i
      mergeLoop A parts fuel nodes
    else .ok nodes

/-- src/optimize_bytes.rs:192-231 `optimize_splits`. -/
def optimizeSplits (A : Arith) (counts : Counts) (parts : Nat) : R (List CharsSplit) := do
  let nodes ← mergeLoop A parts counts.length (counts.map (fun p => .leaf p.2 p.1))
  .ok (nodes.map nodeToSplit)

/-- src/optimize_bytes.rs:234-274 `optimize_ext_encoding`. -/
def extEncoding (A : Arith) (nExt : Nat) : Nat → Counts → R (List (UInt8 × List Nat))
  | 0, _ => .error .fuel
  | fuel + 1, counts =>
    if counts.length ≤ nExt then
      .ok (counts.zipIdx.map (fun (p, i) => (p.1, [i])))
    else do
      let splits ← optimizeSplits A counts nExt
      extLoop (extEncoding A nExt fuel) counts splits 0 []

/-- src/optimize_bytes.rs:286-312. -/
def tokensetLoop (A : Arith) (counts : Counts) (nExt : Nat) : List CharsSplit → TokenSet → R TokenSet
  | [], ts => .ok ts
  | split :: rest, ts => do
    let (ts, top) ← ts.addToken [split.top]
    let (lo, hi) ← groupBounds counts split rest.head?
    if hi = lo + 1 then tokensetLoop A counts nExt rest ts
    else do
      let sub ← subCounts counts split lo hi
      let encs ← extEncoding A nExt (sub.length + 1) sub
      tokensetLoop A counts nExt rest (addSeqs ts top encs)

/-- src/optimize_bytes.rs:276-315 `optimize_bytes_tokenset`. -/
def bytesTokenset (A : Arith) (counts : Counts) (nChar nExt : Nat) (p : Processing) : R TokenSet := do
  let ts ← TokenSet.new nExt p .bytesHuff true
  let splits ← optimizeSplits A counts nChar
  tokensetLoop A counts nExt splits ts

/-- src/optimize_bytes.rs:83-89, with `count + 1` on `u64`. -/
def huffTokens (A : Arith) : List (Token × Nat) → Counts → R Counts
  | [], cs => .ok cs
  | (.str [b], c) :: l, cs => do
    let c' ← A.add c 1
    huffTokens A l (setCount cs b c')
  | _ :: l, cs => huffTokens A l cs

/-- src/optimize_bytes.rs:91-94. -/
def huffSeqs (A : Arith) : List (Sequence × Nat) → Counts → R Counts
  | [], cs => .ok cs
  | (q, c) :: l, cs =>
    match q.string with
    | [b] => do
      let c' ← A.add c 1
      huffSeqs A l (setCount cs b c')
    | _ => .error .assertFailed

/-- src/optimize_bytes.rs:82-94. -/
def huffCounts (A : Arith) (st : TokenStats) : R Counts := do
  let cs ← huffTokens A (st.tokenSet.tokens.zip st.tokenCounts) (allBytes.map (fun b => (b, 1)))
  huffSeqs A (st.tokenSet.sequences.zip st.seqCounts) cs

/-- src/optimize_bytes.rs:106-113. -/
def costTokens (A : Arith) (counts : Counts) : List Token → Nat → R Nat
  | [], total => .ok total
  | .ext _ :: ts, total => costTokens A counts ts total
  | .str s :: ts, total =>
    match s with
    | [b] => do
      let c ← countOf counts b
      let t ← A.add total c
      costTokens A counts ts t
    | _ => .error .assertFailed

/-- src/optimize_bytes.rs:115-118. -/
def costSeqs (A : Arith) (counts : Counts) : List Sequence → Nat → R Nat
  | [], total => .ok total
  | q :: qs, total =>
    match q.string with
    | [b] => do
      let c ← countOf counts b
      let x ← A.mul c q.tokens.length
      let t ← A.add total x
      costSeqs A counts qs t
    | _ => .error .assertFailed

/-- src/optimize_bytes.rs:96-124. -/
def huffLoop (A : Arith) (counts : Counts) (n : Nat) (p : Processing) :
    List Nat → Option (TokenSet × Nat) → R (Option (TokenSet × Nat))
  | [], best => .ok best
  | k :: ks, best => do
    let nByte ← subR n k
    let ts ← bytesTokenset A counts nByte k p
    let total ← costTokens A counts ts.tokens 0
    let total ← costSeqs A counts ts.sequences total
    let best := match best with
      | none => some (ts, total)
      | some (b, m) => if total < m then some (ts, total) else some (b, m)
    huffLoop A counts n p ks best

/-- src/optimize_bytes.rs:81-139 `HuffOptimizer::optimize_bytes`. -/
def huff (A : Arith) : BytesOptimizer := fun st n => do
  let counts ← huffCounts A st
  let m ← subR n 1
  let maxExt := min m 10
  let best ← huffLoop A counts n st.tokenSet.processing ((List.range (maxExt + 1)).drop 2) none
  let (ts, _) ← unwrapR best
  ts.addTokens (longStrings st.tokenSet.tokens)

/-! ### src/optimize.rs -/

/-- src/optimize.rs:52-55, with `-(count as i64)` as the key. -/
def pairOrder (A : Arith) (counts : List Nat) : R (List Nat) :=
  sortByKey (fun i => A.neg (toI64 (counts.getD i 0)))
    ((List.range counts.length).filter (fun i => decide (0 < counts.getD i 0)))

/-- src/optimize.rs:51-92 `add_token_bpe`. -/
def addTokenBpe (A : Arith) (st : TokenStats) : R (Option (TokenSet × Int)) := do
  let pairs ← pairOrder A st.pairCounts
  let (new, count) ← bpeLoop st pairs []
  if new.isEmpty then .ok none
  else do
    let (ts, _) ← st.tokenSet.addToken new
    .ok (some (ts, toI64 count))

/-- src/optimize.rs:117-124. -/
def sumTok (A : Arith) (cost : ByteArr (Option Nat)) (counts : List Nat) : List Token → Nat → Nat → R Nat
  | [], _, total => .ok total
  | .str [b] :: ts, i, total => do
    let c ← unwrapR (cost b)
    let n ← getR counts i
    let x ← A.mul c n
    let t ← A.add total x
    sumTok A cost counts ts (i + 1) t
  | _ :: ts, i, total => sumTok A cost counts ts (i + 1) total

/-- src/optimize.rs:126-131. -/
def sumSeq (A : Arith) (cost : ByteArr (Option Nat)) (counts : List Nat) : List Sequence → Nat → Nat → R Nat
  | [], _, total => .ok total
  | ⟨[b], _⟩ :: qs, i, total => do
    let c ← unwrapR (cost b)
    let n ← getR counts i
    let x ← A.mul c n
    let t ← A.add total x
    sumSeq A cost counts qs (i + 1) t
  | _ :: qs, i, total => sumSeq A cost counts qs (i + 1) total

/-- src/optimize.rs:94-134 `count_tokens_in_bytes`. -/
def countTokensInBytes (A : Arith) (ts : TokenSet) (st : TokenStats) : R Nat := do
  let cost ← costTok ts.tokens (fun _ => none)
  let cost ← costSeq ts.sequences cost
  let total ← sumTok A cost st.tokenCounts st.tokenSet.tokens 0 0
  sumSeq A cost st.seqCounts st.tokenSet.sequences 0 total

/-- src/optimize.rs:136-152 `add_byte`. -/
def addByte (A : Arith) (bo : BytesOptimizer) (st : TokenStats) : R (Option (TokenSet × Int)) := do
  let old ← countTokensInBytes A st.tokenSet st
  let n ← subR st.tokenSet.ntokens st.tokenSet.nLongTokens
  let ts ← bo st (n + 1)
  if ts.ntokens = st.tokenSet.ntokens then .ok none
  else do
    let new ← countTokensInBytes A ts st
    let d ← A.sub (toI64 old) (toI64 new)
    .ok (some (ts, d))

/-- src/optimize.rs:154-176 `add_token`. -/
def addToken (A : Arith) (bo : BytesOptimizer) (ts : TokenSet) : Prog (Option TokenSet) := do
  let st ← getStatsWithPairs ts
  let byte ← Prog.lift (addByte A bo st)
  let token ← Prog.lift (addTokenBpe A st)
  return choose byte token

/-- src/optimize.rs:225-243. -/
def removeLoop (A : Arith) (bo : BytesOptimizer) (ts : TokenSet) (ntokens total : Nat) :
    List Bytes → Removals → Prog (Option TokenStats × Removals)
  | [], rc => return (none, rc)
  | s :: rest, rc => do
    let idx ← Prog.lift (unwrapR (ts.findToken s))
    let ts1 ← Prog.lift (ts.removeToken idx)
    let m ← Prog.lift (subR ntokens 1)
    Prog.lift (rassert (ts1.ntokens == m))
    match ← addToken A bo ts1 with
    | some ts2 => do
      let st2 ← getStats ts2
      if st2.totalTokens < total then return (some st2, rc.bump s)
      else removeLoop A bo ts ntokens total rest (rc.bump s)
    | none => removeLoop A bo ts ntokens total rest (rc.bump s)

/-- src/optimize.rs:199-212. -/
def tradeByte (A : Arith) (bo : BytesOptimizer) (ts : TokenSet) (ntokens : Nat) (st : TokenStats) :
    Prog (Option TokenStats) := do
  let n ← Prog.lift (subR ts.ntokens ts.nLongTokens)
  if n > ts.minBytesExtTokens then do
    let n' ← Prog.lift (subR n 1)
    let ts1 ← Prog.lift (bo st n')
    let m ← Prog.lift (subR ntokens 1)
    Prog.lift (rassert (ts1.ntokens == m))
    let st1 ← getStatsWithPairs ts1
    match ← Prog.lift (addTokenBpe A st1) with
    | some (ts2, _) => do
      let st2 ← getStats ts2
      if st2.totalTokens < st.totalTokens then return some st2 else return none
    | none => return none
  else return none

/-- src/optimize.rs:178-247 `remove_add_token`. -/
def removeAddToken (A : Arith) (bo : BytesOptimizer) (ts : TokenSet) (ntokens : Nat) (rc : Removals) :
    Prog (Option TokenStats × Removals) := do
  if ts.ntokens < ntokens then
    match ← addToken A bo ts with
    | some ts' => do
      let st ← getStats ts'
      return (some st, rc)
    | none => return (none, rc)
  else do
    Prog.lift (rassert (ts.ntokens == ntokens))
    let st ← getStats ts
    match ← tradeByte A bo ts ntokens st with
    | some st' => return (some st', rc)
    | none => do
      let order ← sortUnstableBy rc (longStrings ts.tokens)
      removeLoop A bo ts ntokens st.totalTokens order rc

/-- src/optimize.rs:249-285 `optimization_step`. -/
def optimizationStep (A : Arith) (bo : BytesOptimizer) (ts : TokenSet) (ntokens : Nat) (rc : Removals) :
    Prog (Option TokenSet × Removals) := do
  let st ← getStats ts
  let n ← Prog.lift (subR ntokens ts.nLongTokens)
  let ts' ← Prog.lift (bo st n)
  let st' ← getStats ts'
  if st'.totalTokens < st.totalTokens then return (some st'.tokenSet, rc)
  else do
    match ← removeAddToken A bo ts ntokens rc with
    | (some st2, rc') => do
      Prog.lift (rassert (decide (st2.tokenSet.ntokens ≤ ntokens)))
      return (some st2.tokenSet, rc')
    | (none, rc') => return (none, rc')

/-- src/optimize.rs:344-355. -/
def startSet (A : Arith) (ntokens : Nat) (p : Processing) (ty : TokenType) (pretrained : Option TokenSet) :
    Prog TokenSet :=
  match pretrained, ty with
  | some ts, _ => return ts
  | none, .bits1 => Prog.lift (TokenSet.newBits1 p true)
  | none, .bits2 => Prog.lift (TokenSet.newBits2 p true)
  | none, .bits4 => Prog.lift (TokenSet.newBits4 p true)
  | none, .bytes => Prog.lift (TokenSet.newBytes p)
  | none, .bytesHuff => do
    let ts ← Prog.lift (TokenSet.newBytes p)
    let st ← getStats ts
    Prog.lift (huff A st ntokens)

/-- src/optimize.rs:357-388. -/
def optimizerFor (A : Arith) : TokenType → BytesOptimizer
  | .bits1 => simple A
  | .bits2 => simple A
  | .bits4 => simple A
  | .bytes => noop
  | .bytesHuff => huff A

/-! ### The cache and the runs, with the `tokenize_file` of the build -/

/-- src/batch_tokenize.rs:133-148 `get_stats`. -/
inductive GetStats (A : Arith) (env : Env) : Cache → TokenSet → Cache → TokenStats → Prop
  | hit {c ts ts' key st} (hs : ts.sort = .ok ts') (hk : getKey ts' = .ok key) (hc : c key = some st) :
      GetStats A env c ts c st
  | miss {c ts ts' key st} (hs : ts.sort = .ok ts') (hk : getKey ts' = .ok key) (hc : c key = none)
      (ht : Machine.TokenizeFile A.add ts' env.sampler env.initialSize env.nthreads st) :
      GetStats A env c ts
        (Cache.insert c key { st with pairCounts := [] }) { st with pairCounts := [] }

/-- src/batch_tokenize.rs:121-131 `get_stats_with_pairs`. -/
inductive GetStatsWithPairs (A : Arith) (env : Env) : Cache → TokenSet → Cache → TokenStats → Prop
  | mk {c ts ts' key st} (hs : ts.sort = .ok ts')
      (ht : Machine.TokenizeFile A.add ts' env.sampler env.initialSize env.nthreads st)
      (hk : getKey ts' = .ok key) :
      GetStatsWithPairs A env c ts (Cache.insert c key st.cloneWithoutPairs) st

/-- `tokenize_file` does not return. -/
inductive TokenizeFails (A : Arith) (ts : TokenSet) (env : Env) : Prop where
  | sync {e} (h : env.sampler.totalSize < 1 <<< 25)
      (hs : Machine.tokenizeFileSync A.add ts env.sampler.samples env.initialSize = .error e) :
      TokenizeFails A ts env
  | new {e} (h : ¬ env.sampler.totalSize < 1 <<< 25) (hn : FragmentTokenizer.new ts = .error e) :
      TokenizeFails A ts env
  | stuck {tk s} (h : ¬ env.sampler.totalSize < 1 <<< 25) (hn : FragmentTokenizer.new ts = .ok tk)
      (hs : Machine.PSteps A.add tk (pinit ts env.sampler.samples env.initialSize env.nthreads) s)
      (hstuck : ¬ ∃ s', Machine.PStep A.add tk s s') (hr : s.main ≠ .returned) : TokenizeFails A ts env

/-- `get_stats` does not return. -/
inductive StatsFails (A : Arith) (env : Env) (c : Cache) (ts : TokenSet) : Prop where
  | sort {e} (h : ts.sort = .error e) : StatsFails A env c ts
  | key {ts' e} (hs : ts.sort = .ok ts') (hk : getKey ts' = .error e) : StatsFails A env c ts
  | tokenize {ts' key} (hs : ts.sort = .ok ts') (hk : getKey ts' = .ok key) (hc : c key = none)
      (ht : TokenizeFails A ts' env) : StatsFails A env c ts

/-- `get_stats_with_pairs` does not return. -/
inductive PairsFails (A : Arith) (env : Env) (ts : TokenSet) : Prop where
  | sort {e} (h : ts.sort = .error e) : PairsFails A env ts
  | tokenize {ts'} (hs : ts.sort = .ok ts') (ht : TokenizeFails A ts' env) : PairsFails A env ts
  | key {ts' e} (hs : ts.sort = .ok ts') (hk : getKey ts' = .error e) : PairsFails A env ts

/-- What a program may do (`Optimize.Run`). -/
inductive Run (A : Arith) (env : Env) {α : Type} : Prog α → World → R α → World → Prop where
  | pure {a w} : Run A env (.pure a) w (.ok a) w
  | fail {e w} : Run A env (.fail e) w (.error e) w
  | stats {ts k w c st r w'} (hg : GetStats A env w.cache ts c st)
      (hk : Run A env (k st) ⟨c, w.saved⟩ r w') : Run A env (.stats ts k) w r w'
  | statsFail {ts k w} (hf : StatsFails A env w.cache ts) : Run A env (.stats ts k) w (.error .panic) w
  | pairs {ts k w c st r w'} (hg : GetStatsWithPairs A env w.cache ts c st)
      (hk : Run A env (k st) ⟨c, w.saved⟩ r w') : Run A env (.pairs ts k) w r w'
  | pairsFail {ts k w} (hf : PairsFails A env ts) : Run A env (.pairs ts k) w (.error .panic) w
  | sortUnstable {key l k l' w r w'} (hp : l'.Perm l)
      (hs : l'.Pairwise (fun a b => key a ≤ key b))
      (hk : Run A env (k l') w r w') : Run A env (.sortUnstable key l k) w r w'
  | clock {k w r w'} (b : Bool) (hk : Run A env (k b) w r w') : Run A env (.clock k) w r w'
  | save {ts k w f r w'} (hf : savedFile ts = .ok f)
      (hk : Run A env k ⟨w.cache, w.saved ++ [f]⟩ r w') : Run A env (.save ts k) w r w'
  | saveFail {ts k w e} (hf : savedFile ts = .error e) : Run A env (.save ts k) w (.error e) w

/-- src/optimize.rs:311-327: the loop of `optimize_tokenset_impl`. -/
inductive Loop (A : Arith) (env : Env) (bo : BytesOptimizer) (ntokens : Nat) :
    TokenSet → Removals → World → R TokenSet → World → Prop where
  | stop {ts rc rc' w w'}
      (hs : Run A env (optimizationStep A bo ts ntokens rc) w (.ok (none, rc')) w') :
      Loop A env bo ntokens ts rc w (.ok ts) w'
  | fail {ts rc w e w'} (hs : Run A env (optimizationStep A bo ts ntokens rc) w (.error e) w') :
      Loop A env bo ntokens ts rc w (.error e) w'
  | again {ts rc w ts' rc' w1 w2 r w'}
      (hs : Run A env (optimizationStep A bo ts ntokens rc) w (.ok (some ts', rc')) w1)
      (hsave : Run A env (maybeSave ts') w1 (.ok ()) w2)
      (hl : Loop A env bo ntokens ts' rc' w2 r w') : Loop A env bo ntokens ts rc w r w'
  | saveFail {ts rc w ts' rc' w1 e w2}
      (hs : Run A env (optimizationStep A bo ts ntokens rc) w (.ok (some ts', rc')) w1)
      (hsave : Run A env (maybeSave ts') w1 (.error e) w2) : Loop A env bo ntokens ts rc w (.error e) w2

/-- src/optimize.rs:294-331 `optimize_tokenset_impl`. -/
inductive Impl (A : Arith) (env : Env) (bo : BytesOptimizer) (ntokens : Nat) :
    TokenSet → World → R TokenStats → World → Prop where
  | done {ts w st w1 ts' w2 r w'} (h1 : Run A env (getStats ts) w (.ok st) w1)
      (h2 : Loop A env bo ntokens ts (fun _ => 0) w1 (.ok ts') w2)
      (h3 : Run A env (finish ts') w2 r w') : Impl A env bo ntokens ts w r w'
  | firstFail {ts w e w'} (h1 : Run A env (getStats ts) w (.error e) w') :
      Impl A env bo ntokens ts w (.error e) w'
  | loopFail {ts w st w1 e w'} (h1 : Run A env (getStats ts) w (.ok st) w1)
      (h2 : Loop A env bo ntokens ts (fun _ => 0) w1 (.error e) w') :
      Impl A env bo ntokens ts w (.error e) w'

/-- src/optimize.rs:333-389 `optimize_tokenset`. -/
inductive OptimizeTokenset (A : Arith) (env : Env) (ntokens : Nat) (p : Processing) (ty : TokenType)
    (pretrained : Option TokenSet) : R TokenStats → World → Prop where
  | run {ts w r w'}
      (h1 : Run A env (startSet A ntokens p ty pretrained) ⟨fun _ => none, []⟩ (.ok ts) w)
      (h2 : Impl A env (optimizerFor A ty) ntokens ts w r w') :
      OptimizeTokenset A env ntokens p ty pretrained r w'
  | startFail {e w}
      (h1 : Run A env (startSet A ntokens p ty pretrained) ⟨fun _ => none, []⟩ (.error e) w) :
      OptimizeTokenset A env ntokens p ty pretrained (.error e) w

end MachineOpt
end Tokens
