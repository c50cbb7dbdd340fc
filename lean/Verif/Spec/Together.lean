import Verif.Spec.Disk
import Verif.Model.Together

/-!
Specification for several runs of the program at the same time.
-/

namespace Tokens.Spec
open Tokens Disk

/-- The files a command reads. -/
def Reads : Command → Text → Prop
  | .process data _, path => path = data
  | .countChars data, path => path = data
  | .convert data processed inputTokens _, path => path = data ∨ processed = some path ∨ path = inputTokens
  | .optimize data processed _ _ _ _ inputTokens _, path =>
    path = data ∨ processed = some path ∨ inputTokens = some path

end Tokens.Spec
