import Verif.Model.OldOptimizer

/-!
Model of `_add_and_remove_token` in `/repo/src/optimizer.rs`, which nothing calls.  Simplified: numbers are unbounded;
printing is left out.
-/

namespace Tokens
namespace Old

/-- src/optimizer.rs:208-245: the loop over the tokens to remove.  In line 218 `continue` skips the `add_token` of line 244, so that
the token stays removed. -/
def addRemoveLoop (initial fastBefore fastLimit : Nat) : List Bytes → OSet → Prog (Option OSet)
  | [], _ => return none
  | s :: rest, ts => do
    let ts ← Prog.lift (ts.removeToken s)
    let fast ← getStats .fast ts
    let more ← Prog.lift (subR fast.cost fastBefore)
    if more > fastLimit then addRemoveLoop initial fastBefore fastLimit rest ts
    else do
      let st ← getStats .mid ts
      if st.cost < initial then return some ts
      else do
        let ts ← Prog.lift (ts.addToken s)
        addRemoveLoop initial fastBefore fastLimit rest ts

/-- src/optimizer.rs:197-198: how much the fast samples may cost more; a division by zero panics. -/
def fastLimit (saved fastBytes bytes : Nat) : R Nat :=
  if bytes * 2 = 0 then .error .panic else .ok (saved * fastBytes * 3 / (bytes * 2))

/-- src/optimizer.rs:171-248 `_add_and_remove_token`.  (Reading `token_count[i]` for a token of the set.) -/
def addAndRemove (ts : OSet) : Prog (Option OSet) := do
  let initial ← getStats .mid ts
  let (ts, _) ← addTokens .mid ts 1
  let before ← getStats .mid ts
  let fastBefore ← getStats .fast ts
  Prog.lift (rassert (decide (ts.tokens.length ≤ before.tokenCount.length)))
  let ids ← sortBy (fun i => ((before.tokenCount.getD i 0 : Nat) : Int)) ts.tokens.length
  let strs ← Prog.lift (removable ts ids)
  let saved ← Prog.lift (subR initial.cost before.cost)
  let limit ← Prog.lift (fastLimit saved fastBefore.scannedBytes before.scannedBytes)
  addRemoveLoop initial.cost fastBefore.cost limit strs ts

end Old
end Tokens
