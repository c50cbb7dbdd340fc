import Verif.Model.Old
import Mathlib.Analysis.SpecialFunctions.Log.Base

/-!
Model of `has_dist_fallback` and `dist_entropy` in `/repo/src/tokens.rs` (first generation, not part of the program).
Simplified: `f64` is taken as exact real numbers, so rounding is not modelled.
-/

namespace Tokens
namespace Old

/-- src/tokens.rs:165-170 `TokenSet::has_dist_fallback`. -/
def OSet.hasDistFallback (ts : OSet) : Bool :=
  match ts.literal with
  | .dist2 | .dist4 | .dist8 => true
  | _ => false

/-- src/tokens.rs:181-189: the loop over the counts of the 256 literals. -/
noncomputable def entropyLoop (total : Nat) : List Nat → ℝ → ℝ
  | [], entropy => entropy
  | c :: cs, entropy =>
    if c > 0 then
      let fraction : ℝ := (c : ℝ) / (total : ℝ)
      entropyLoop total cs (entropy - fraction * Real.logb 2 fraction)
    else entropyLoop total cs entropy

/-- src/tokens.rs:172-190 `TokenSet::dist_entropy`. -/
noncomputable def OSet.distEntropy (ts : OSet) (st : OStats) : ℝ :=
  if ts.hasDistFallback = false then 0
  else
    let total := st.literalCount.sum
    if total = 0 then 0 else entropyLoop total st.literalCount 0

end Old
end Tokens
