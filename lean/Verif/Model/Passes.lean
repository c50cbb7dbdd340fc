import Verif.Model.Optimize

/-!
The runs of `Verif/Model/Optimize.lean` with a counter of the passes over the data: how often
`TokenizerCache` calls `tokenize_file` (`/repo/src/batch_tokenize.rs:127, 141`).  The definitions repeat
those of that file and count.  A call that does not return counts as a pass.
-/

namespace Tokens
namespace Optimize
open OptimizeBytes Batch

/-- A call of one of the two methods of the cache. -/
inductive Call where
  /-- `get_stats` -/
  | stats (ts : TokenSet)
  /-- `get_stats_with_pairs` -/
  | pairs (ts : TokenSet)

/-- The set that a call is made on. -/
def Call.set : Call → TokenSet
  | .stats ts => ts
  | .pairs ts => ts

/-- `Batch.History` with the calls, the last one first, and the number of calls of `tokenize_file`
(src/batch_tokenize.rs:113-148). -/
inductive Uses (sampler : SamplerData) (initialSize : Option Nat) (nthreads : Nat) :
    List Call → Cache → Nat → Prop where
  | new : Uses sampler initialSize nthreads [] (fun _ => none) 0
  | hit {l c k ts ts' key st} (h : Uses sampler initialSize nthreads l c k) (hs : ts.sort = .ok ts')
      (hk : getKey ts' = .ok key) (hc : c key = some st) :
      Uses sampler initialSize nthreads (.stats ts :: l) c k
  | miss {l c k ts ts' key st} (h : Uses sampler initialSize nthreads l c k) (hs : ts.sort = .ok ts')
      (hk : getKey ts' = .ok key) (hc : c key = none)
      (ht : TokenizeFile ts' sampler initialSize nthreads st) :
      Uses sampler initialSize nthreads (.stats ts :: l)
        (Cache.insert c key { st with pairCounts := [] }) (k + 1)
  | pairs {l c k ts ts' key st} (h : Uses sampler initialSize nthreads l c k) (hs : ts.sort = .ok ts')
      (ht : TokenizeFile ts' sampler initialSize nthreads st) (hk : getKey ts' = .ok key) :
      Uses sampler initialSize nthreads (.pairs ts :: l) (Cache.insert c key st.cloneWithoutPairs) (k + 1)

/-- `Run` with the number of passes.  The lookup of src/batch_tokenize.rs:137 finds something (`hit`) or
not (`miss`, a pass in line 141); `get_stats_with_pairs` does not look (line 127). -/
inductive RunP (env : Env) {α : Type} : Prog α → World → R α → World → Nat → Prop where
  | pure {a w} : RunP env (.pure a) w (.ok a) w 0
  | fail {e w} : RunP env (.fail e) w (.error e) w 0
  | hit {ts k w ts' key st r w' n} (hs : ts.sort = .ok ts') (hkey : getKey ts' = .ok key)
      (hc : w.cache key = some st) (hk : RunP env (k st) w r w' n) : RunP env (.stats ts k) w r w' n
  | miss {ts k w ts' key st r w' n} (hs : ts.sort = .ok ts') (hkey : getKey ts' = .ok key)
      (hc : w.cache key = none)
      (ht : TokenizeFile ts' env.sampler env.initialSize env.nthreads st)
      (hk : RunP env (k { st with pairCounts := [] })
        ⟨Cache.insert w.cache key { st with pairCounts := [] }, w.saved⟩ r w' n) :
      RunP env (.stats ts k) w r w' (n + 1)
  | statsFail {ts k w} (hf : StatsFails env w.cache ts) : RunP env (.stats ts k) w (.error .panic) w 1
  | pairs {ts k w ts' key st r w' n} (hs : ts.sort = .ok ts')
      (ht : TokenizeFile ts' env.sampler env.initialSize env.nthreads st) (hkey : getKey ts' = .ok key)
      (hk : RunP env (k st) ⟨Cache.insert w.cache key st.cloneWithoutPairs, w.saved⟩ r w' n) :
      RunP env (.pairs ts k) w r w' (n + 1)
  | pairsFail {ts k w} (hf : PairsFails env ts) : RunP env (.pairs ts k) w (.error .panic) w 1
  | sortUnstable {key l k l' w r w' n} (hp : l'.Perm l)
      (hs : l'.Pairwise (fun a b => key a ≤ key b))
      (hk : RunP env (k l') w r w' n) : RunP env (.sortUnstable key l k) w r w' n
  | clock {k w r w' n} (b : Bool) (hk : RunP env (k b) w r w' n) : RunP env (.clock k) w r w' n
  | save {ts k w f r w' n} (hf : savedFile ts = .ok f)
      (hk : RunP env k ⟨w.cache, w.saved ++ [f]⟩ r w' n) : RunP env (.save ts k) w r w' n
  | saveFail {ts k w e} (hf : savedFile ts = .error e) : RunP env (.save ts k) w (.error e) w 0

/-- src/optimize.rs:311-327, `Loop` with the number of calls of `optimization_step` and the number of
passes. -/
inductive LoopP (env : Env) (bo : BytesOptimizer) (ntokens : Nat) :
    TokenSet → Removals → World → R TokenSet → World → Nat → Nat → Prop where
  | stop {ts rc rc' w w' n}
      (hs : RunP env (optimizationStep bo ts ntokens rc) w (.ok (none, rc')) w' n) :
      LoopP env bo ntokens ts rc w (.ok ts) w' 1 n
  | fail {ts rc w e w' n} (hs : RunP env (optimizationStep bo ts ntokens rc) w (.error e) w' n) :
      LoopP env bo ntokens ts rc w (.error e) w' 1 n
  | again {ts rc w ts' rc' w1 w2 r w' n m rounds}
      (hs : RunP env (optimizationStep bo ts ntokens rc) w (.ok (some ts', rc')) w1 n)
      (hsave : Run env (maybeSave ts') w1 (.ok ()) w2)
      (hl : LoopP env bo ntokens ts' rc' w2 r w' rounds m) :
      LoopP env bo ntokens ts rc w r w' (rounds + 1) (n + m)
  | saveFail {ts rc w ts' rc' w1 e w2 n}
      (hs : RunP env (optimizationStep bo ts ntokens rc) w (.ok (some ts', rc')) w1 n)
      (hsave : Run env (maybeSave ts') w1 (.error e) w2) : LoopP env bo ntokens ts rc w (.error e) w2 1 n

/-- src/optimize.rs:294-331, `Impl` with the number of rounds and passes. -/
inductive ImplP (env : Env) (bo : BytesOptimizer) (ntokens : Nat) :
    TokenSet → World → R TokenStats → World → Nat → Nat → Prop where
  | done {ts w st w1 ts' w2 r w' n1 n2 n3 rounds} (h1 : RunP env (getStats ts) w (.ok st) w1 n1)
      (h2 : LoopP env bo ntokens ts (fun _ => 0) w1 (.ok ts') w2 rounds n2)
      (h3 : RunP env (finish ts') w2 r w' n3) : ImplP env bo ntokens ts w r w' rounds (n1 + n2 + n3)
  | firstFail {ts w e w' n} (h1 : RunP env (getStats ts) w (.error e) w' n) :
      ImplP env bo ntokens ts w (.error e) w' 0 n
  | loopFail {ts w st w1 e w' n1 n2 rounds} (h1 : RunP env (getStats ts) w (.ok st) w1 n1)
      (h2 : LoopP env bo ntokens ts (fun _ => 0) w1 (.error e) w' rounds n2) :
      ImplP env bo ntokens ts w (.error e) w' rounds (n1 + n2)

/-- src/optimize.rs:333-389, `OptimizeTokenset` with the number of rounds and passes. -/
inductive OptimizeTokensetP (env : Env) (ntokens : Nat) (p : Processing) (ty : TokenType)
    (pretrained : Option TokenSet) : R TokenStats → World → Nat → Nat → Prop where
  | run {ts w r w' n m rounds}
      (h1 : RunP env (startSet ntokens p ty pretrained) ⟨fun _ => none, []⟩ (.ok ts) w n)
      (h2 : ImplP env (optimizerFor ty) ntokens ts w r w' rounds m) :
      OptimizeTokensetP env ntokens p ty pretrained r w' rounds (n + m)
  | startFail {e w n}
      (h1 : RunP env (startSet ntokens p ty pretrained) ⟨fun _ => none, []⟩ (.error e) w n) :
      OptimizeTokensetP env ntokens p ty pretrained (.error e) w 0 n

end Optimize
end Tokens
