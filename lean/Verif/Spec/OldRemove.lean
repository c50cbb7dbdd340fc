import Verif.Model.OldRemove
import Verif.Spec.OldOptimizer

/-!
Specification for `_add_and_remove_token` of the first generation of the optimizer.
-/

namespace Tokens.Spec.Old
open Tokens Tokens.Old

/-- The set with the new token is `more`.  Without its token `s`, the samples cost at least as much as with `ts`. -/
def TooDear (env : Env) (ts more : OSet) (s : Bytes) : Prop :=
  ∃ less, Without more s less ∧ ∀ c c', IsCost ts env.mid c → IsCost less env.mid c' → c ≤ c'

/-- Without its token `s`, the fast samples cost so much more, that the share of what the new token has saved, by the size of the
samples, and half of it are used up. -/
def Important (env : Env) (ts more : OSet) (s : Bytes) : Prop :=
  ∃ less, Without more s less ∧ ∀ c c' f f', IsCost ts env.mid c → IsCost more env.mid c' → IsCost more env.fast f →
    IsCost less env.fast f' →
    (c - c') * env.fast.flatten.length * 3 / (env.mid.flatten.length * 2) < f' - f

/-- All tokens in `tried` are not mandatory and were tried in vain. -/
structure InVain (env : Env) (ts more : OSet) (tried : List Bytes) : Prop where
  nodup : tried.Nodup
  each : ∀ s ∈ tried, s ∈ strings more ∧ s ∉ fixed more ∧ TooDear env ts more s ∧ ¬ Important env ts more s

end Tokens.Spec.Old
