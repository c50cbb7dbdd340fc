import Verif.Model.Json
import Verif.Model.Batch

/-!
Model of `TokenizerCache` (`/repo/src/batch_tokenize.rs:106-154`).  What `tokenize_file` returns is a
relation (`Batch.TokenizeFile`), so the two methods are relations between the cache before, the
argument, the cache after and the result.
-/

namespace Tokens
namespace Batch

/-- src/batch_tokenize.rs:108: `HashMap<String, TokenStats>`. -/
abbrev Cache := Text → Option TokenStats

/-- `HashMap::insert`. -/
def Cache.insert (c : Cache) (key : Text) (st : TokenStats) : Cache :=
  fun k => if k = key then some st else c k

/-- src/batch_tokenize.rs:150-153 `get_key`. -/
def getKey (ts : TokenSet) : R Text := do
  let v ← ts.toJson
  .ok v.render

/-- src/batch_tokenize.rs:133-148 `get_stats`. -/
inductive GetStats (sampler : SamplerData) (initialSize : Option Nat) (nthreads : Nat) :
    Cache → TokenSet → Cache → TokenStats → Prop
  | hit {c ts ts' key st} (hs : ts.sort = .ok ts') (hk : getKey ts' = .ok key) (hc : c key = some st) :
      GetStats sampler initialSize nthreads c ts c st
  | miss {c ts ts' key st} (hs : ts.sort = .ok ts') (hk : getKey ts' = .ok key) (hc : c key = none)
      (ht : TokenizeFile ts' sampler initialSize nthreads st) :
      GetStats sampler initialSize nthreads c ts
        (Cache.insert c key { st with pairCounts := [] }) { st with pairCounts := [] }

/-- src/batch_tokenize.rs:121-131 `get_stats_with_pairs`. -/
inductive GetStatsWithPairs (sampler : SamplerData) (initialSize : Option Nat) (nthreads : Nat) :
    Cache → TokenSet → Cache → TokenStats → Prop
  | mk {c ts ts' key st} (hs : ts.sort = .ok ts')
      (ht : TokenizeFile ts' sampler initialSize nthreads st) (hk : getKey ts' = .ok key) :
      GetStatsWithPairs sampler initialSize nthreads c ts
        (Cache.insert c key st.cloneWithoutPairs) st

/-- The caches that a sequence of calls can lead to, starting from `TokenizerCache::new`
(src/batch_tokenize.rs:113-119), with the token sets it was called on. -/
inductive History (sampler : SamplerData) (initialSize : Option Nat) (nthreads : Nat) :
    List TokenSet → Cache → Prop
  | new : History sampler initialSize nthreads [] (fun _ => none)
  | stats {l c ts c' st} : History sampler initialSize nthreads l c →
      GetStats sampler initialSize nthreads c ts c' st →
      History sampler initialSize nthreads (l ++ [ts]) c'
  | pairs {l c ts c' st} : History sampler initialSize nthreads l c →
      GetStatsWithPairs sampler initialSize nthreads c ts c' st →
      History sampler initialSize nthreads (l ++ [ts]) c'

end Batch
end Tokens
