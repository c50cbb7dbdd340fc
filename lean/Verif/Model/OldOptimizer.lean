import Verif.Model.Old
import Verif.Model.TokenSet

/-!
Model of the first generation of the optimizer, `/repo/src/optimizer.rs`.  This file is in the repository but is
not part of the program.  Simplified: numbers are unbounded; printing is left out; `save_token_set` records
the set and its statistics (what is written is in Model/OldAll).
-/

namespace Tokens
namespace Old

/-! ### Programs -/

/-- The two tokenizer caches, each with its sampler: `tokenizer` and `fast_tokenizer`. -/
inductive Which where
  | mid | fast
  deriving DecidableEq, Repr

/-- A program that uses its surroundings. -/
inductive Prog (α : Type) : Type where
  | pure (a : α)
  /-- a panic, or a loop that does not end within the bound of the model -/
  | fail (e : Err)
  /-- src/optimizer.rs:56-81 `get_stats` -/
  | stats (w : Which) (ts : OSet) (k : OStats → Prog α)
  /-- src/optimizer.rs:33-54 `get_stats_with_pairs` -/
  | pairs (w : Which) (ts : OSet) (k : OStats → Prog α)
  /-- `tokenize_file(ts, slow_sampler, false)` -/
  | slow (ts : OSet) (k : OStats → Prog α)
  /-- the entries of the hash map `pair_count`, in the order in which the map is traversed -/
  | entries (st : OStats) (k : List (Nat × Nat) → Prog α)
  /-- `sort_unstable_by_key`: the numbers below `n`, sorted by the key -/
  | sort (key : Nat → Int) (n : Nat) (k : List Nat → Prog α)
  /-- src/optimizer.rs:560: whether more than 600 seconds have passed since the last time -/
  | clock (k : Bool → Prog α)
  /-- src/optimizer.rs:489-502 `save_token_set` -/
  | save (ts : OSet) (st : OStats) (k : Prog α)

namespace Prog

/-- Sequential composition. -/
def bind {α β : Type} : Prog α → (α → Prog β) → Prog β
  | .pure a, f => f a
  | .fail e, _ => .fail e
  | .stats w ts k, f => .stats w ts (fun st => (k st).bind f)
  | .pairs w ts k, f => .pairs w ts (fun st => (k st).bind f)
  | .slow ts k, f => .slow ts (fun st => (k st).bind f)
  | .entries st k, f => .entries st (fun l => (k l).bind f)
  | .sort key n k, f => .sort key n (fun l => (k l).bind f)
  | .clock k, f => .clock (fun b => (k b).bind f)
  | .save ts st k, f => .save ts st (k.bind f)

instance : Monad Prog where
  pure := Prog.pure
  bind := Prog.bind

/-- A computation that uses nothing and may panic. -/
def lift {α : Type} : R α → Prog α
  | .ok a => .pure a
  | .error e => .fail e

end Prog

/-- The methods of the caches and the other primitives as programs. -/
def getStats (w : Which) (ts : OSet) : Prog OStats := .stats w ts .pure
def getStatsWithPairs (w : Which) (ts : OSet) : Prog OStats := .pairs w ts .pure
def slowStats (ts : OSet) : Prog OStats := .slow ts .pure
def entriesOf (st : OStats) : Prog (List (Nat × Nat)) := .entries st .pure
def sortBy (key : Nat → Int) (n : Nat) : Prog (List Nat) := .sort key n .pure
def askClock : Prog Bool := .clock .pure
def saveTokenSet (ts : OSet) (st : OStats) : Prog Unit := .save ts st (.pure ())

/-! ### The functions of optimizer.rs -/

/-- src/optimizer.rs:34-45 and 57-68: the key of a set in the cache. -/
def cacheKey (ts : OSet) : Bytes :=
  ((ts.tokens.map OToken.string).mergeSort bytesLe).flatMap (· ++ [0])

/-- src/optimizer.rs:97-104 and 140-145: the bytes that occur as literals, with their counts. -/
def literalValues (st : OStats) : R (List (Bytes × Nat)) :=
  allBytes.foldlM (fun acc b => do
    let c ← getR st.literalCount b.toNat
    .ok (if c > 0 then acc ++ [([b], c)] else acc)) []

/-- src/optimizer.rs:106-115 and 152-157: the texts of the pairs of tokens that occur, with their counts. -/
def pairTexts (ts : OSet) : List (Nat × Nat) → R (List (Bytes × Nat))
  | [] => .ok []
  | (key, count) :: rest =>
    if count > 0 then do
      let a ← getR ts.tokens (key / 65536)
      let b ← getR ts.tokens (key % 65536)
      let out ← pairTexts ts rest
      .ok ((a.string ++ b.string, count) :: out)
    else pairTexts ts rest

/-- src/optimizer.rs:121-124 and 480-483: the loop that adds tokens. -/
def addAll : OSet → List Bytes → R OSet
  | ts, [] => .ok ts
  | ts, s :: ss => do
    let ts' ← ts.addToken s
    addAll ts' ss

/-- src/optimizer.rs:88-127 `add_tokens`. -/
def addTokens (w : Which) (ts : OSet) (n : Nat) : Prog (OSet × List Bytes) := do
  let st ← getStatsWithPairs w ts
  let lits ← Prog.lift (literalValues st)
  let lc ← Prog.lift (subR ts.literal.literalCost 1)
  let es ← entriesOf st
  let prs ← Prog.lift (pairTexts ts es)
  let values := lits.map (fun p => (p.1, p.2 * lc)) ++ prs
  let order ← sortBy (fun i => -(((values.getD i ([], 0)).2 : Nat) : Int)) values.length
  let added := (order.map (fun i => (values.getD i ([], 0)).1)).take n
  let ts' ← Prog.lift (addAll ts added)
  return (ts', added)

/-- src/optimizer.rs:137-145: the best literal. -/
def bestLiteral : List (Bytes × Nat) → Option Bytes × Nat → Option Bytes × Nat
  | [], best => best
  | (s, c) :: rest, (added, cost) => bestLiteral rest (if c > cost then (some s, c) else (added, cost))

/-- src/optimizer.rs:149-166: the loop over the pairs; `sums` is `pair_values`. -/
def bestPair : List (Bytes × Nat) → (Bytes → Nat) → Option Bytes × Nat → Option Bytes × Nat
  | [], _, best => best
  | (s, c) :: rest, sums, (added, cost) =>
    let total := sums s + c
    bestPair rest (fun x => if x = s then total else sums x)
      (if total > cost then (some s, total) else (added, cost))

/-- src/optimizer.rs:129-169 `add_token`. -/
def bestToken (w : Which) (ts : OSet) : Prog Bytes := do
  let st ← getStatsWithPairs w ts
  let lits ← Prog.lift (literalValues st)
  let es ← entriesOf st
  let prs ← Prog.lift (pairTexts ts es)
  Prog.lift (unwrapR (bestPair prs (fun _ => 0) (bestLiteral lits (none, 0))).1)

/-- `HashMap<Vec<u8>, usize>`: how often the removal of a token was tried. -/
abbrev Attempts := Bytes → Nat

/-- src/optimizer.rs:299-307: `or_insert(0)` and `*count += 1`. -/
def Attempts.bump (a : Attempts) (s : Bytes) : Attempts := fun x => if x = s then a x + 1 else a x

/-- src/optimizer.rs:298-351: the loop over the tokens to remove. -/
def removeLoop (ts : OSet) (initial : Nat) : List Bytes → Nat → Attempts → Prog (Option OSet × Attempts)
  | [], _, att => return (none, att)
  | s :: rest, tries, att =>
    if tries ≥ 512 ∧ att s > 0 then return (none, att)
    else do
      let new ← Prog.lift (ts.removeToken s)
      let added ← bestToken .fast new
      if added = s then removeLoop ts initial rest (tries + 1) (att.bump s)
      else do
        let new' ← Prog.lift (new.addToken added)
        let st ← getStats .mid new'
        if st.cost < initial then return (some new', att.bump s)
        else removeLoop ts initial rest (tries + 1) (att.bump s)

/-- src/optimizer.rs:269-275: the key of a token when the tokens to remove are sorted. -/
def removalKey (ts : OSet) (st : OStats) (att : Attempts) (i : Nat) : Int :=
  ((st.tokenCount.getD i 0 + att ((ts.tokens.map OToken.string).getD i []) * 2 ^ 32 : Nat) : Int)

/-- src/optimizer.rs:279-288: the strings of the tokens that are not mandatory, in the order of `ids`. -/
def removable (ts : OSet) : List Nat → R (List Bytes)
  | [] => .ok []
  | i :: is => do
    let t ← getR ts.tokens i
    let rest ← removable ts is
    .ok (if t.isMandatory then rest else t.string :: rest)

/-- src/optimizer.rs:250-352 `remove_and_add_token`.  (Reading `token_count[i]` for a token of the set.) -/
def removeAndAdd (ts : OSet) (att : Attempts) : Prog (Option OSet × Attempts) := do
  let st ← getStats .mid ts
  Prog.lift (rassert (decide (ts.tokens.length ≤ st.tokenCount.length)))
  let ids ← sortBy (removalKey ts st att) ts.tokens.length
  let strs ← Prog.lift (removable ts ids)
  removeLoop ts st.cost strs 0 att

/-- src/optimizer.rs:354-374 `add_tokens_bpe`.  The first argument bounds the number of rounds. -/
def addTokensBpe (w : Which) (ntokens block : Nat) : Nat → OSet → Prog OSet
  | 0, ts => if ts.ntokens < ntokens then .fail .fuel else return ts
  | fuel + 1, ts =>
    if ts.ntokens < ntokens then do
      let (ts', _) ← addTokens w ts (min block (ntokens - ts.ntokens))
      let _ ← getStats w ts'
      addTokensBpe w ntokens block fuel ts'
    else return ts

/-- src/optimizer.rs:391-416: the loop of `optimize_bpe`. -/
def bpeLoop : Nat → OSet → Attempts → Prog OSet
  | 0, _, _ => .fail .fuel
  | fuel + 1, ts, att => do
    let _ ← getStats .mid ts
    match ← removeAndAdd ts att with
    | (some ts', att') => bpeLoop fuel ts' att'
    | (none, _) => return ts

/-- src/optimizer.rs:376-422 `optimize_bpe`. -/
def optimizeBpe (fuel : Nat) (ts : OSet) (ntokens block : Nat) : Prog (OSet × OStats) := do
  let ts ← addTokensBpe .mid ntokens block fuel ts
  let ts ← bpeLoop fuel ts (fun _ => 0)
  let st ← getStats .mid ts
  return (ts, st)

/-! #### Single bytes -/

/-- src/optimizer.rs:431-440: the uses of the bytes with a token, the number of these tokens, and which
bytes they are.  `i` is the index of the first token. -/
def byteUses (st : OStats) : List OToken → Nat → (UInt8 → Nat) × Nat × (UInt8 → Bool) →
    R ((UInt8 → Nat) × Nat × (UInt8 → Bool))
  | [], _, acc => .ok acc
  | t :: ts, i, (count, n, isTok) =>
    match t.string with
    | [b] => do
      let c ← getR st.tokenCount i
      byteUses st ts (i + 1) (fun x => if x = b then count x + c else count x, n + 1,
        fun x => if x = b then true else isTok x)
    | _ => byteUses st ts (i + 1) (count, n, isTok)

/-- src/optimizer.rs:442-447: the uses of the literals. -/
def literalUses (st : OStats) : List UInt8 → (UInt8 → Nat) → R (UInt8 → Nat)
  | [], count => .ok count
  | b :: bs, count => do
    let c ← getR st.literalCount b.toNat
    if c > 0 then do
      rassert (decide (count b = 0))
      literalUses st bs (fun x => if x = b then c else count x)
    else literalUses st bs count

/-- src/optimizer.rs:474-477: the loop that removes tokens. -/
def removeAll : OSet → List Bytes → R OSet
  | ts, [] => .ok ts
  | ts, s :: ss => do
    let ts' ← ts.removeToken s
    removeAll ts' ss

/-- src/optimizer.rs:424-487 `optimize_byte_tokens`: whether the set was changed, and the set. -/
def optimizeByteTokens (ts : OSet) (st : OStats) : Prog (Bool × OSet) := do
  let (count, n, isTok) ← Prog.lift (byteUses st ts.tokens 0 (fun _ => 0, 0, fun _ => false))
  let count ← Prog.lift (literalUses st allBytes count)
  let ids ← sortBy (fun i => -((count (UInt8.ofNat i) : Nat) : Int)) 256
  let bytes := ids.map UInt8.ofNat
  let toAdd := (bytes.take n).filter (fun b => !isTok b)
  let toRemove := (bytes.drop n).filter (fun b => isTok b)
  if toAdd.isEmpty then do
    Prog.lift (rassert toRemove.isEmpty)
    return (false, ts)
  else do
    Prog.lift (rassert (!toRemove.isEmpty))
    let ts ← Prog.lift (removeAll ts (toRemove.map ([·])))
    let ts ← Prog.lift (addAll ts (toAdd.map ([·])))
    return (true, ts)

/-! #### The whole -/

/-- src/optimizer.rs:560-578: what is done once in a while; the set and the best cost so far. -/
def sometimes (ts : OSet) (best : Nat) : Prog (OSet × Nat) := do
  if ← askClock then do
    let st ← slowStats ts
    let (changed, ts) ← optimizeByteTokens ts st
    let st ← if changed then slowStats ts else pure st
    if st.cost < best then do
      saveTokenSet ts st
      return (ts, st.cost)
    else return (ts, best)
  else return (ts, best)

/-- src/optimizer.rs:552-579: the loop of `optimize_token_set`. -/
def setLoop : Nat → OSet → Nat → Attempts → Prog (OSet × Nat)
  | 0, _, _, _ => .fail .fuel
  | fuel + 1, ts, best, att => do
    match ← removeAndAdd ts att with
    | (some ts', att') => do
      let (ts'', best') ← sometimes ts' best
      setLoop fuel ts'' best' att'
    | (none, _) => return (ts, best)

/-- src/optimizer.rs:581-597: the end of `optimize_token_set`. -/
def finishSet (ts : OSet) (best : Nat) : Prog Unit := do
  let st ← slowStats ts
  let (changed, ts) ← optimizeByteTokens ts st
  let st ← if changed then do
      let st' ← slowStats ts
      Prog.lift (rassert (decide (st'.cost < st.cost)))
      pure st'
    else pure st
  if st.cost ≤ best then saveTokenSet ts st else return ()

/-- src/optimizer.rs:515-540: the start of `optimize_token_set`; the set and its cost. -/
def startSet (fuel : Nat) (ts : OSet) (ntokens block : Nat) : Prog (OSet × Nat) := do
  let ts ← if ts.ntokens < ntokens then addTokensBpe .mid ntokens block fuel ts else pure ts
  let st ← slowStats ts
  let (changed, ts) ← optimizeByteTokens ts st
  let st ← if changed then do
      let st' ← slowStats ts
      Prog.lift (rassert (decide (st'.cost ≤ st.cost)))
      pure st'
    else pure st
  saveTokenSet ts st
  return (ts, st.cost)

/-- src/optimizer.rs:504-598 `optimize_token_set`.  The first argument bounds the number of rounds of each
of the two loops. -/
def optimizeTokenSet (fuel : Nat) (ts : OSet) (ntokens block : Nat) : Prog Unit := do
  let (ts, best) ← startSet fuel ts ntokens block
  let (ts, best) ← setLoop fuel ts best (fun _ => 0)
  finishSet ts best

/-- src/optimizer.rs:600-620 `load_prev_token_set`: the number in the name of the file that is loaded;
`has n`: there is a file for `n` tokens. -/
def loadPrev (has : Nat → Bool) (n : Nat) : Option Nat :=
  if has n then some n else if h : n > 2 then loadPrev has (n / 2) else none
termination_by n
decreasing_by exact Nat.div_lt_self (by omega) (by omega)

/-- src/optimizer.rs:637-639: `while block * block >= ntokens { block /= 2; }`.  The first argument bounds the
number of rounds. -/
def halve (ntokens : Nat) : Nat → Nat → R Nat
  | 0, block => if block * block ≥ ntokens then .error .fuel else .ok block
  | fuel + 1, block => if block * block ≥ ntokens then halve ntokens fuel (block / 2) else .ok block

/-- src/optimizer.rs:636-639: the size of the blocks of added tokens. -/
def blockFor (fuel ntokens : Nat) : R Nat := halve ntokens fuel (ntokens / 2)

/-- src/optimizer.rs:649-656: whether `optimize_all` skips a number of tokens (the literals are `Dist8`). -/
def skips (raw : Bool) (ntokens : Nat) : Bool :=
  decide (LiteralEncoding.dist8.reservedTokens > ntokens) || (raw && decide (ntokens ≥ 1024))

/-! ### What programs may do -/

/-- The samples of the three samplers, and the number of threads. -/
structure Env where
  slow : List Bytes
  mid : List Bytes
  fast : List Bytes
  nthreads : Nat

/-- The samples of a cache. -/
def Env.samples (env : Env) : Which → List Bytes
  | .mid => env.mid
  | .fast => env.fast

/-- The contents of the two caches, and what was saved. -/
structure World where
  cache : Which → Bytes → Option OStats
  saved : List (OSet × OStats)

/-- At the start the caches are empty, and nothing was saved. -/
def World.start : World := { cache := fun _ _ => none, saved := [] }

/-- `self.cache.insert(key, stats_clone)`. -/
def World.put (w : World) (c : Which) (key : Bytes) (st : OStats) : World :=
  { w with cache := fun c' k => if c' = c ∧ k = key then some st else w.cache c' k }

/-- `pair_count.clear()` on the clone. -/
def OStats.clear (st : OStats) : OStats := { st with pairCount := fun _ => 0 }

/-- The entries of the map of pairs, each once (an entry is made when it is increased for the first time). -/
structure Entries (st : OStats) (l : List (Nat × Nat)) : Prop where
  keys : (l.map Prod.fst).Nodup
  all : ∀ k c, (k, c) ∈ l ↔ st.pairCount k = c ∧ 0 < c

/-- What a program may do, and its result. -/
inductive Run (env : Env) {α : Type} : Prog α → World → R α → World → Prop where
  | pure {a : α} {w : World} : Run env (.pure a) w (.ok a) w
  | fail {e : Err} {w : World} : Run env (.fail e) w (.error e) w
  /-- src/optimizer.rs:70-72 -/
  | hit {c : Which} {ts : OSet} {k : OStats → Prog α} {w w' : World} {st : OStats} {r : R α}
      (hc : w.cache c (cacheKey ts) = some st) (hk : Run env (k st) w r w') : Run env (.stats c ts k) w r w'
  /-- src/optimizer.rs:74-80 -/
  | miss {c : Which} {ts : OSet} {k : OStats → Prog α} {w w' : World} {st : OStats} {r : R α}
      (hc : w.cache c (cacheKey ts) = none) (ht : TokenizeFile ts (env.samples c) false env.nthreads (.ok st))
      (hk : Run env (k st) (w.put c (cacheKey ts) st.clear) r w') : Run env (.stats c ts k) w r w'
  | missPanic {c : Which} {ts : OSet} {k : OStats → Prog α} {w : World} {e : Err}
      (hc : w.cache c (cacheKey ts) = none) (ht : TokenizeFile ts (env.samples c) false env.nthreads (.error e)) :
      Run env (.stats c ts k) w (.error e) w
  /-- src/optimizer.rs:47-53 -/
  | pairs {c : Which} {ts : OSet} {k : OStats → Prog α} {w w' : World} {st : OStats} {r : R α}
      (ht : TokenizeFile ts (env.samples c) true env.nthreads (.ok st))
      (hk : Run env (k st) (w.put c (cacheKey ts) st.clear) r w') : Run env (.pairs c ts k) w r w'
  | pairsPanic {c : Which} {ts : OSet} {k : OStats → Prog α} {w : World} {e : Err}
      (ht : TokenizeFile ts (env.samples c) true env.nthreads (.error e)) : Run env (.pairs c ts k) w (.error e) w
  | slow {ts : OSet} {k : OStats → Prog α} {w w' : World} {st : OStats} {r : R α}
      (ht : TokenizeFile ts env.slow false env.nthreads (.ok st)) (hk : Run env (k st) w r w') :
      Run env (.slow ts k) w r w'
  | slowPanic {ts : OSet} {k : OStats → Prog α} {w : World} {e : Err}
      (ht : TokenizeFile ts env.slow false env.nthreads (.error e)) : Run env (.slow ts k) w (.error e) w
  | entries {st : OStats} {k : List (Nat × Nat) → Prog α} {l : List (Nat × Nat)} {w w' : World} {r : R α}
      (hl : Entries st l) (hk : Run env (k l) w r w') : Run env (.entries st k) w r w'
  | sort {key : Nat → Int} {n : Nat} {k : List Nat → Prog α} {l : List Nat} {w w' : World} {r : R α}
      (hp : l.Perm (List.range n)) (hs : l.Pairwise (fun a b => key a ≤ key b)) (hk : Run env (k l) w r w') :
      Run env (.sort key n k) w r w'
  | clock {k : Bool → Prog α} {w w' : World} {r : R α} (b : Bool) (hk : Run env (k b) w r w') :
      Run env (.clock k) w r w'
  | save {ts : OSet} {st : OStats} {k : Prog α} {w w' : World} {r : R α}
      (hk : Run env k { w with saved := w.saved ++ [(ts, st)] } r w') : Run env (.save ts st k) w r w'

end Old
end Tokens
