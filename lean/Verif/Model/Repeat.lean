import Verif.Model.Optimize

/-!
The runs of the optimizer (`Verif/Model/Optimize.lean`, modelling `/repo/src/optimize.rs`) in which
`sort_unstable_by_key` (src/optimize.rs:222) is a function: it returns the same list whenever it is
called with the same list and the same keys.  (The documentation of the standard library only says that
it may reorder equal elements, and `Run` leaves the order of equal elements open each time.)  Everything
else is as in `Run`, `Loop`, `Impl` and `OptimizeTokenset`.
-/

namespace Tokens
namespace Optimize
open OptimizeBytes Batch

/-- What `sort_unstable_by_key` does, as a function of the keys and the list (src/optimize.rs:222). -/
abbrev SortFn := (Bytes → Nat) → List Bytes → List Bytes

/-- It sorts. -/
def SortFn.Sorts (f : SortFn) : Prop :=
  ∀ key l, (f key l).Perm l ∧ (f key l).Pairwise (fun a b => key a ≤ key b)

/-- As `Run`, with the sort `f`. -/
inductive RunBy (f : SortFn) (env : Env) {α : Type} : Prog α → World → R α → World → Prop where
  | pure {a w} : RunBy f env (.pure a) w (.ok a) w
  | fail {e w} : RunBy f env (.fail e) w (.error e) w
  | stats {ts k w c st r w'}
      (hg : GetStats env.sampler env.initialSize env.nthreads w.cache ts c st)
      (hk : RunBy f env (k st) ⟨c, w.saved⟩ r w') : RunBy f env (.stats ts k) w r w'
  | statsFail {ts k w} (hf : StatsFails env w.cache ts) : RunBy f env (.stats ts k) w (.error .panic) w
  | pairs {ts k w c st r w'}
      (hg : GetStatsWithPairs env.sampler env.initialSize env.nthreads w.cache ts c st)
      (hk : RunBy f env (k st) ⟨c, w.saved⟩ r w') : RunBy f env (.pairs ts k) w r w'
  | pairsFail {ts k w} (hf : PairsFails env ts) : RunBy f env (.pairs ts k) w (.error .panic) w
  | sortUnstable {key l k w r w'} (hk : RunBy f env (k (f key l)) w r w') :
      RunBy f env (.sortUnstable key l k) w r w'
  | clock {k w r w'} (b : Bool) (hk : RunBy f env (k b) w r w') : RunBy f env (.clock k) w r w'
  | save {ts k w g r w'} (hf : savedFile ts = .ok g)
      (hk : RunBy f env k ⟨w.cache, w.saved ++ [g]⟩ r w') : RunBy f env (.save ts k) w r w'
  | saveFail {ts k w e} (hf : savedFile ts = .error e) : RunBy f env (.save ts k) w (.error e) w

/-- As `Loop`, with the sort `f` (src/optimize.rs:311-327). -/
inductive LoopBy (f : SortFn) (env : Env) (bo : BytesOptimizer) (ntokens : Nat) :
    TokenSet → Removals → World → R TokenSet → World → Prop where
  | stop {ts rc rc' w w'}
      (hs : RunBy f env (optimizationStep bo ts ntokens rc) w (.ok (none, rc')) w') :
      LoopBy f env bo ntokens ts rc w (.ok ts) w'
  | fail {ts rc w e w'} (hs : RunBy f env (optimizationStep bo ts ntokens rc) w (.error e) w') :
      LoopBy f env bo ntokens ts rc w (.error e) w'
  | again {ts rc w ts' rc' w1 w2 r w'}
      (hs : RunBy f env (optimizationStep bo ts ntokens rc) w (.ok (some ts', rc')) w1)
      (hsave : RunBy f env (maybeSave ts') w1 (.ok ()) w2)
      (hl : LoopBy f env bo ntokens ts' rc' w2 r w') : LoopBy f env bo ntokens ts rc w r w'
  | saveFail {ts rc w ts' rc' w1 e w2}
      (hs : RunBy f env (optimizationStep bo ts ntokens rc) w (.ok (some ts', rc')) w1)
      (hsave : RunBy f env (maybeSave ts') w1 (.error e) w2) :
      LoopBy f env bo ntokens ts rc w (.error e) w2

/-- As `Impl`, with the sort `f` (src/optimize.rs:294-331). -/
inductive ImplBy (f : SortFn) (env : Env) (bo : BytesOptimizer) (ntokens : Nat) :
    TokenSet → World → R TokenStats → World → Prop where
  | done {ts w st w1 ts' w2 r w'} (h1 : RunBy f env (getStats ts) w (.ok st) w1)
      (h2 : LoopBy f env bo ntokens ts (fun _ => 0) w1 (.ok ts') w2)
      (h3 : RunBy f env (finish ts') w2 r w') : ImplBy f env bo ntokens ts w r w'
  | firstFail {ts w e w'} (h1 : RunBy f env (getStats ts) w (.error e) w') :
      ImplBy f env bo ntokens ts w (.error e) w'
  | loopFail {ts w st w1 e w'} (h1 : RunBy f env (getStats ts) w (.ok st) w1)
      (h2 : LoopBy f env bo ntokens ts (fun _ => 0) w1 (.error e) w') :
      ImplBy f env bo ntokens ts w (.error e) w'

/-- As `OptimizeTokenset`, with the sort `f` (src/optimize.rs:333-389). -/
inductive OptimizeBy (f : SortFn) (env : Env) (ntokens : Nat) (p : Processing) (ty : TokenType)
    (pretrained : Option TokenSet) : R TokenStats → World → Prop where
  | run {ts w r w'}
      (h1 : RunBy f env (startSet ntokens p ty pretrained) ⟨fun _ => none, []⟩ (.ok ts) w)
      (h2 : ImplBy f env (optimizerFor ty) ntokens ts w r w') :
      OptimizeBy f env ntokens p ty pretrained r w'
  | startFail {e w}
      (h1 : RunBy f env (startSet ntokens p ty pretrained) ⟨fun _ => none, []⟩ (.error e) w) :
      OptimizeBy f env ntokens p ty pretrained (.error e) w

end Optimize
end Tokens
