import Verif.Model.Cache
import Verif.Model.OptimizeBytes

/-!
Model of `/repo/src/optimize.rs`.

The optimizer talks to its surroundings in five ways: the two methods of the tokenizer cache, an
unstable sort, the clock, and files.  `Prog` is the type of such programs; `Run` says what a program
may do, with the cache methods of `Verif/Model/Cache.lean`.  Printing is left out here;
`Verif/Model/Log.lean` has the same functions with their `println!`s, `Verif/Model/Show.lean` has
`show_tokenset_diff` (lines 26-49).
`i64` and `u64` arithmetic is exact (no overflow).
-/

namespace Tokens
namespace Optimize
open OptimizeBytes Batch

/-! ### Programs -/

/-- A program with the five kinds of interaction. -/
inductive Prog (α : Type) : Type where
  | pure (a : α)
  /-- a panic -/
  | fail (e : Err)
  /-- `tokenizer_cache.get_stats(ts)` -/
  | stats (ts : TokenSet) (k : TokenStats → Prog α)
  /-- `tokenizer_cache.get_stats_with_pairs(ts)` -/
  | pairs (ts : TokenSet) (k : TokenStats → Prog α)
  /-- `l.sort_unstable_by_key(key)` -/
  | sortUnstable (key : Bytes → Nat) (l : List Bytes) (k : List Bytes → Prog α)
  /-- whether more than 60 seconds have passed since the last save -/
  | clock (k : Bool → Prog α)
  /-- `save_tokens(ts, tokens_dir)` -/
  | save (ts : TokenSet) (k : Prog α)

/-- Sequential composition. -/
def Prog.bind {α β : Type} : Prog α → (α → Prog β) → Prog β
  | .pure a, f => f a
  | .fail e, _ => .fail e
  | .stats ts k, f => .stats ts (fun st => (k st).bind f)
  | .pairs ts k, f => .pairs ts (fun st => (k st).bind f)
  | .sortUnstable key l k, f => .sortUnstable key l (fun l' => (k l').bind f)
  | .clock k, f => .clock (fun b => (k b).bind f)
  | .save ts k, f => .save ts (k.bind f)

instance : Monad Prog where
  pure := Prog.pure
  bind := Prog.bind

/-- A computation without interaction that may panic. -/
def Prog.lift {α : Type} : R α → Prog α
  | .ok a => .pure a
  | .error e => .fail e

/-- The two cache methods and the other primitives as programs. -/
def getStats (ts : TokenSet) : Prog TokenStats := .stats ts .pure
def getStatsWithPairs (ts : TokenSet) : Prog TokenStats := .pairs ts .pure
def sortUnstableBy (key : Bytes → Nat) (l : List Bytes) : Prog (List Bytes) :=
  .sortUnstable key l .pure
def askClock : Prog Bool := .clock .pure
def saveTokens (ts : TokenSet) : Prog Unit := .save ts (.pure ())

/-! ### The functions of src/optimize.rs -/

/-- src/optimize.rs:15-24 `is_valid_token`; `s.len() - 2` underflows for strings shorter than two
bytes. -/
def isValidToken (s : Bytes) : R Bool := do
  let n ← subR s.length 2
  .ok ((List.range n).all (fun i =>
    !(decide (s[i]? = some 10) && decide (s[i + 1]? = some 10) && decide (s[i + 2]? ≠ some 10))))

/-- src/optimize.rs:52-55: the indices of the pairs that occur, by descending count (`sort_by_key`
is stable). -/
def pairOrder (counts : List Nat) : List Nat :=
  ((List.range counts.length).filter (fun i => decide (0 < counts.getD i 0))).mergeSort
    (fun i j => decide (counts.getD j 0 ≤ counts.getD i 0))

/-- src/optimize.rs:57-80: the loop over the pairs, with the current `new_token`; `token_count` is 0
until the loop is left by `break`. -/
def bpeLoop (st : TokenStats) : List Nat → Bytes → R (Bytes × Nat)
  | [], new => .ok (new, 0)
  | p :: ps, _ => do
    if st.ntokens = 0 then .error .panic  -- division by zero
    else do
      let t1 ← getR st.tokenSet.tokens (p / st.ntokens)
      let t2 ← getR st.tokenSet.tokens (p % st.ntokens)
      match t1, t2 with
      | .str s1, .str s2 => do
        let ok ← isValidToken (s1 ++ s2)
        if ok then do
          let c ← getR st.pairCounts p
          .ok (s1 ++ s2, c)
        else bpeLoop st ps (s1 ++ s2)
      | _, _ => .error .unreachable

/-- src/optimize.rs:51-92 `add_token_bpe`. -/
def addTokenBpe (st : TokenStats) : R (Option (TokenSet × Int)) := do
  let (new, count) ← bpeLoop st (pairOrder st.pairCounts) []
  if new.isEmpty then .ok none
  else do
    let (ts, _) ← st.tokenSet.addToken new
    .ok (some (ts, (count : Int)))

/-- src/optimize.rs:97-105: the costs of the bytes with a token. -/
def costTok : List Token → ByteArr (Option Nat) → R (ByteArr (Option Nat))
  | [], a => .ok a
  | .str [b] :: ts, a => do
    rassert (a b).isNone
    costTok ts (a.set b (some 1))
  | _ :: ts, a => costTok ts a

/-- src/optimize.rs:107-113: the costs of the bytes with a sequence. -/
def costSeq : List Sequence → ByteArr (Option Nat) → R (ByteArr (Option Nat))
  | [], a => .ok a
  | ⟨[b], l⟩ :: qs, a => do
    rassert (a b).isNone
    costSeq qs (a.set b (some l.length))
  | _ :: qs, a => costSeq qs a

/-- src/optimize.rs:117-124: the tokens' part of `total`; `i` is the index of the first token. -/
def sumTok (cost : ByteArr (Option Nat)) (counts : List Nat) : List Token → Nat → Nat → R Nat
  | [], _, total => .ok total
  | .str [b] :: ts, i, total => do
    let c ← unwrapR (cost b)
    let n ← getR counts i
    sumTok cost counts ts (i + 1) (total + c * n)
  | _ :: ts, i, total => sumTok cost counts ts (i + 1) total

/-- src/optimize.rs:126-131: the sequences' part of `total`. -/
def sumSeq (cost : ByteArr (Option Nat)) (counts : List Nat) : List Sequence → Nat → Nat → R Nat
  | [], _, total => .ok total
  | ⟨[b], _⟩ :: qs, i, total => do
    let c ← unwrapR (cost b)
    let n ← getR counts i
    sumSeq cost counts qs (i + 1) (total + c * n)
  | _ :: qs, i, total => sumSeq cost counts qs (i + 1) total

/-- src/optimize.rs:94-134 `count_tokens_in_bytes`. -/
def countTokensInBytes (ts : TokenSet) (st : TokenStats) : R Nat := do
  let cost ← costTok ts.tokens (fun _ => none)
  let cost ← costSeq ts.sequences cost
  let total ← sumTok cost st.tokenCounts st.tokenSet.tokens 0 0
  sumSeq cost st.seqCounts st.tokenSet.sequences 0 total

/-- src/optimize.rs:136-152 `add_byte`. -/
def addByte (bo : BytesOptimizer) (st : TokenStats) : R (Option (TokenSet × Int)) := do
  let old ← countTokensInBytes st.tokenSet st
  let n ← subR st.tokenSet.ntokens st.tokenSet.nLongTokens
  let ts ← bo st (n + 1)
  if ts.ntokens = st.tokenSet.ntokens then .ok none
  else do
    let new ← countTokensInBytes ts st
    .ok (some (ts, (old : Int) - (new : Int)))

/-- src/optimize.rs:163-175: the choice between the two candidates. -/
def choose : Option (TokenSet × Int) → Option (TokenSet × Int) → Option TokenSet
  | none, none => none
  | some (a, _), none => some a
  | none, some (b, _) => some b
  | some (a, x), some (b, y) => if x > y then some a else some b

/-- src/optimize.rs:154-176 `add_token`. -/
def addToken (bo : BytesOptimizer) (ts : TokenSet) : Prog (Option TokenSet) := do
  let st ← getStatsWithPairs ts
  let byte ← Prog.lift (addByte bo st)
  let token ← Prog.lift (addTokenBpe st)
  return choose byte token

/-- `HashMap<Vec<u8>, usize>` of removal counts, 0 for absent keys. -/
abbrev Removals := Bytes → Nat

/-- src/optimize.rs:226: `*removal_count.entry(s).or_insert(0) += 1`. -/
def Removals.bump (rc : Removals) (s : Bytes) : Removals := fun x => if x = s then rc x + 1 else rc x

/-- src/optimize.rs:225-243: the loop over the tokens to remove; `total` is `stats.total_tokens`. -/
def removeLoop (bo : BytesOptimizer) (ts : TokenSet) (ntokens total : Nat) :
    List Bytes → Removals → Prog (Option TokenStats × Removals)
  | [], rc => return (none, rc)
  | s :: rest, rc => do
    let idx ← Prog.lift (unwrapR (ts.findToken s))
    let ts1 ← Prog.lift (ts.removeToken idx)
    let m ← Prog.lift (subR ntokens 1)
    Prog.lift (rassert (ts1.ntokens == m))
    match ← addToken bo ts1 with
    | some ts2 => do
      let st2 ← getStats ts2
      if st2.totalTokens < total then return (some st2, rc.bump s)
      else removeLoop bo ts ntokens total rest (rc.bump s)
    | none => removeLoop bo ts ntokens total rest (rc.bump s)

/-- src/optimize.rs:199-212: give up a byte token for a pair.  (The condition of line 199.) -/
def tradeByte (bo : BytesOptimizer) (ts : TokenSet) (ntokens : Nat) (st : TokenStats) :
    Prog (Option TokenStats) := do
  let n ← Prog.lift (subR ts.ntokens ts.nLongTokens)
  if n > ts.minBytesExtTokens then do
    let n' ← Prog.lift (subR n 1)
    let ts1 ← Prog.lift (bo st n')
    let m ← Prog.lift (subR ntokens 1)
    Prog.lift (rassert (ts1.ntokens == m))
    let st1 ← getStatsWithPairs ts1
    match ← Prog.lift (addTokenBpe st1) with
    | some (ts2, _) => do
      let st2 ← getStats ts2
      if st2.totalTokens < st.totalTokens then return some st2 else return none
    | none => return none
  else return none

/-- src/optimize.rs:178-247 `remove_add_token`; `removal_count` is threaded through. -/
def removeAddToken (bo : BytesOptimizer) (ts : TokenSet) (ntokens : Nat) (rc : Removals) :
    Prog (Option TokenStats × Removals) := do
  if ts.ntokens < ntokens then
    match ← addToken bo ts with
    | some ts' => do
      let st ← getStats ts'
      return (some st, rc)
    | none => return (none, rc)
  else do
    Prog.lift (rassert (ts.ntokens == ntokens))
    let st ← getStats ts
    match ← tradeByte bo ts ntokens st with
    | some st' => return (some st', rc)
    | none => do
      let order ← sortUnstableBy rc (longStrings ts.tokens)
      removeLoop bo ts ntokens st.totalTokens order rc

/-- src/optimize.rs:249-285 `optimization_step`. -/
def optimizationStep (bo : BytesOptimizer) (ts : TokenSet) (ntokens : Nat) (rc : Removals) :
    Prog (Option TokenSet × Removals) := do
  let st ← getStats ts
  let n ← Prog.lift (subR ntokens ts.nLongTokens)
  let ts' ← Prog.lift (bo st n)
  let st' ← getStats ts'
  if st'.totalTokens < st.totalTokens then return (some st'.tokenSet, rc)
  else do
    match ← removeAddToken bo ts ntokens rc with
    | (some st2, rc') => do
      Prog.lift (rassert (decide (st2.tokenSet.ntokens ≤ ntokens)))
      return (some st2.tokenSet, rc')
    | (none, rc') => return (none, rc')

/-- src/optimize.rs:319-322: save if the clock says so. -/
def maybeSave (ts : TokenSet) : Prog Unit := do
  if ← askClock then saveTokens ts else return ()

/-- src/optimize.rs:329-330: the end of `optimize_tokenset_impl`. -/
def finish (ts : TokenSet) : Prog TokenStats := do
  let ts' ← Prog.lift ts.sort
  getStats ts'

/-- src/optimize.rs:344-355: the token set to start from. -/
def startSet (ntokens : Nat) (p : Processing) (ty : TokenType) (pretrained : Option TokenSet) :
    Prog TokenSet :=
  match pretrained, ty with
  | some ts, _ => return ts
  | none, .bits1 => Prog.lift (TokenSet.newBits1 p true)
  | none, .bits2 => Prog.lift (TokenSet.newBits2 p true)
  | none, .bits4 => Prog.lift (TokenSet.newBits4 p true)
  | none, .bytes => Prog.lift (TokenSet.newBytes p)
  | none, .bytesHuff => do
    let ts ← Prog.lift (TokenSet.newBytes p)
    let st ← getStats ts
    Prog.lift (huff st ntokens)

/-- src/optimize.rs:357-388: the byte optimizer of a token type. -/
def optimizerFor : TokenType → BytesOptimizer
  | .bits1 => simple
  | .bits2 => simple
  | .bits4 => simple
  | .bytes => noop
  | .bytesHuff => huff

/-! ### What programs may do -/

/-- The surroundings that do not change: sampler, `initial_size`, number of threads. -/
structure Env where
  sampler : SamplerData
  initialSize : Option Nat
  nthreads : Nat

/-- The surroundings that change: the cache and the token sets written so far (name of the file and
contents). -/
structure World where
  cache : Cache
  saved : List (Text × Text)

/-- `tokenize_file` does not return: the sequential path or the constructor panics, or the parallel
path comes to a state from which it cannot go on. -/
inductive TokenizeFails (ts : TokenSet) (env : Env) : Prop where
  | sync {e} (h : env.sampler.totalSize < 1 <<< 25)
      (hs : tokenizeFileSync ts env.sampler.samples env.initialSize = .error e) : TokenizeFails ts env
  | new {e} (h : ¬ env.sampler.totalSize < 1 <<< 25) (hn : FragmentTokenizer.new ts = .error e) :
      TokenizeFails ts env
  | stuck {tk s} (h : ¬ env.sampler.totalSize < 1 <<< 25) (hn : FragmentTokenizer.new ts = .ok tk)
      (hs : PSteps tk (pinit ts env.sampler.samples env.initialSize env.nthreads) s)
      (hstuck : ¬ ∃ s', PStep tk s s') (hr : s.main ≠ .returned) : TokenizeFails ts env

/-- `get_stats` does not return. -/
inductive StatsFails (env : Env) (c : Cache) (ts : TokenSet) : Prop where
  | sort {e} (h : ts.sort = .error e) : StatsFails env c ts
  | key {ts' e} (hs : ts.sort = .ok ts') (hk : getKey ts' = .error e) : StatsFails env c ts
  | tokenize {ts' key} (hs : ts.sort = .ok ts') (hk : getKey ts' = .ok key) (hc : c key = none)
      (ht : TokenizeFails ts' env) : StatsFails env c ts

/-- `get_stats_with_pairs` does not return. -/
inductive PairsFails (env : Env) (ts : TokenSet) : Prop where
  | sort {e} (h : ts.sort = .error e) : PairsFails env ts
  | tokenize {ts'} (hs : ts.sort = .ok ts') (ht : TokenizeFails ts' env) : PairsFails env ts
  | key {ts' e} (hs : ts.sort = .ok ts') (hk : getKey ts' = .error e) : PairsFails env ts

/-- src/optimize.rs:287-292 `save_tokens`: the file name and the contents (writing succeeds). -/
def savedFile (ts : TokenSet) : R (Text × Text) := do
  let v ← ts.toJson
  .ok (ts.name ++ ".json".toList, v.render)

/-- `Run env p w r w'`: program `p`, started in `w`, may end in `w'` with result `r` (a value, or an
error if it panics or a call into the tokenizer does not return). -/
inductive Run (env : Env) {α : Type} : Prog α → World → R α → World → Prop where
  | pure {a w} : Run env (.pure a) w (.ok a) w
  | fail {e w} : Run env (.fail e) w (.error e) w
  | stats {ts k w c st r w'}
      (hg : GetStats env.sampler env.initialSize env.nthreads w.cache ts c st)
      (hk : Run env (k st) ⟨c, w.saved⟩ r w') : Run env (.stats ts k) w r w'
  | statsFail {ts k w} (hf : StatsFails env w.cache ts) : Run env (.stats ts k) w (.error .panic) w
  | pairs {ts k w c st r w'}
      (hg : GetStatsWithPairs env.sampler env.initialSize env.nthreads w.cache ts c st)
      (hk : Run env (k st) ⟨c, w.saved⟩ r w') : Run env (.pairs ts k) w r w'
  | pairsFail {ts k w} (hf : PairsFails env ts) : Run env (.pairs ts k) w (.error .panic) w
  | sortUnstable {key l k l' w r w'} (hp : l'.Perm l)
      (hs : l'.Pairwise (fun a b => key a ≤ key b))
      (hk : Run env (k l') w r w') : Run env (.sortUnstable key l k) w r w'
  | clock {k w r w'} (b : Bool) (hk : Run env (k b) w r w') : Run env (.clock k) w r w'
  | save {ts k w f r w'} (hf : savedFile ts = .ok f)
      (hk : Run env k ⟨w.cache, w.saved ++ [f]⟩ r w') : Run env (.save ts k) w r w'
  | saveFail {ts k w e} (hf : savedFile ts = .error e) : Run env (.save ts k) w (.error e) w

/-- src/optimize.rs:311-327: the loop of `optimize_tokenset_impl`; the number of rounds is not
bounded. -/
inductive Loop (env : Env) (bo : BytesOptimizer) (ntokens : Nat) :
    TokenSet → Removals → World → R TokenSet → World → Prop where
  | stop {ts rc rc' w w'}
      (hs : Run env (optimizationStep bo ts ntokens rc) w (.ok (none, rc')) w') :
      Loop env bo ntokens ts rc w (.ok ts) w'
  | fail {ts rc w e w'} (hs : Run env (optimizationStep bo ts ntokens rc) w (.error e) w') :
      Loop env bo ntokens ts rc w (.error e) w'
  | again {ts rc w ts' rc' w1 w2 r w'}
      (hs : Run env (optimizationStep bo ts ntokens rc) w (.ok (some ts', rc')) w1)
      (hsave : Run env (maybeSave ts') w1 (.ok ()) w2)
      (hl : Loop env bo ntokens ts' rc' w2 r w') : Loop env bo ntokens ts rc w r w'
  | saveFail {ts rc w ts' rc' w1 e w2}
      (hs : Run env (optimizationStep bo ts ntokens rc) w (.ok (some ts', rc')) w1)
      (hsave : Run env (maybeSave ts') w1 (.error e) w2) : Loop env bo ntokens ts rc w (.error e) w2

/-- src/optimize.rs:294-331 `optimize_tokenset_impl`. -/
inductive Impl (env : Env) (bo : BytesOptimizer) (ntokens : Nat) :
    TokenSet → World → R TokenStats → World → Prop where
  | done {ts w st w1 ts' w2 r w'} (h1 : Run env (getStats ts) w (.ok st) w1)
      (h2 : Loop env bo ntokens ts (fun _ => 0) w1 (.ok ts') w2)
      (h3 : Run env (finish ts') w2 r w') : Impl env bo ntokens ts w r w'
  | firstFail {ts w e w'} (h1 : Run env (getStats ts) w (.error e) w') :
      Impl env bo ntokens ts w (.error e) w'
  | loopFail {ts w st w1 e w'} (h1 : Run env (getStats ts) w (.ok st) w1)
      (h2 : Loop env bo ntokens ts (fun _ => 0) w1 (.error e) w') :
      Impl env bo ntokens ts w (.error e) w'

/-- src/optimize.rs:333-389 `optimize_tokenset` (and `Optimizer::optimize`, lines 416-426); the cache
is new and nothing has been written. -/
inductive OptimizeTokenset (env : Env) (ntokens : Nat) (p : Processing) (ty : TokenType)
    (pretrained : Option TokenSet) : R TokenStats → World → Prop where
  | run {ts w r w'} (h1 : Run env (startSet ntokens p ty pretrained) ⟨fun _ => none, []⟩ (.ok ts) w)
      (h2 : Impl env (optimizerFor ty) ntokens ts w r w') :
      OptimizeTokenset env ntokens p ty pretrained r w'
  | startFail {e w} (h1 : Run env (startSet ntokens p ty pretrained) ⟨fun _ => none, []⟩ (.error e) w) :
      OptimizeTokenset env ntokens p ty pretrained (.error e) w

end Optimize
end Tokens
