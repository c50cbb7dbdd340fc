import Verif.Model.Passes
import Verif.Spec.Optimizing

/-! How many passes over the data are needed. -/

namespace Tokens.Spec
open Tokens Batch Optimize

/-- One of the calls was made on the same set, up to the order of its tokens and sequences. -/
def AskedBefore (calls : List Call) (ts : TokenSet) : Prop := ∃ c ∈ calls, c.set.sort = ts.sort

open Classical in
/-- The number of passes over the data for the calls, the last one first: one for each call with pairs,
and one for each other call on a set that no call before was made on. -/
noncomputable def passesFor : List Call → Nat
  | [] => 0
  | .pairs _ :: l => passesFor l + 1
  | .stats ts :: l => passesFor l + if AskedBefore l ts then 0 else 1

end Tokens.Spec
