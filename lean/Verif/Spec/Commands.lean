import Verif.Spec.Optimizing
import Verif.Model.Main

/-!
Specification for the commands of `src/main.rs`.
-/

namespace Tokens.Spec
open Tokens Batch Optimize Main

/-- A machine with at least one processor. -/
structure MachineOk (m : Machine) : Prop where
  threads : 0 < m.nthreads

/-- What the optimizer can be started with: no set and a size that can be asked for, or a set it can
work on. -/
def GoodInput (ty : TokenType) (p : Processing) (ntokens : Nat) : Option TokenSet → Prop
  | none => Admissible ty ntokens
  | some ts => Workable ty p ntokens ts

/-- The statistics are those of a whole file, cut into samples by the file sampler. -/
def FullStats (file : Bytes) (n : Option Nat) (st : TokenStats) : Prop :=
  ∃ short sd, Input.fileSampler file (2 ^ 24) short = .ok sd ∧ sd.samples.flatten = file ∧
    tokenizeFileSync st.tokenSet sd.samples n = .ok st

end Tokens.Spec
