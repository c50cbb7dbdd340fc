import Verif.Spec.Disk
import Verif.Spec.Segmentation

/-!
Specification for the numbers in a saved file.
-/

namespace Tokens.Spec
open Tokens

/-- The JSON value of a saved file reports what tokenizing `samples` with the set `ts` gives, for a data file
of `raw` bytes: the number of tokens of the set, the size of the data file, the number of bytes that were
tokenized, the least number of tokens that the samples can be written with, and the quotient of the size and
that number.  `ratio s t`: the JSON of the floating-point quotient. -/
structure Reported (ratio : Nat → Nat → Json) (v : Json) (ts : TokenSet) (raw : Nat) (samples : List Bytes) :
    Prop where
  tokens : ∃ l, v.get? "tokens" = some (.arr l) ∧ l.length = ts.tokens.length
  stats : ∃ s, v.get? "stats" = some s ∧
    s.get? "ntokens" = some (.num ts.tokens.length) ∧
    s.get? "initial_size" = some (.num raw) ∧
    s.get? "scanned_bytes" = some (.num (samples.map List.length).sum) ∧
    ∃ total : Nat, s.get? "total_tokens" = some (.num total) ∧ s.get? "bytes_per_token" = some (ratio raw total) ∧
      ∃ seg : Bytes → List Piece, (∀ x ∈ samples, Optimal ts x (seg x)) ∧
        total = (samples.map (fun x => (output ts (seg x)).length)).sum

end Tokens.Spec
