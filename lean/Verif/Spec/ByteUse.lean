import Verif.Spec.Family
import Verif.Spec.Merging

/-!
Specification of how many output tokens go into single bytes, given the statistics of a
tokenization.
-/

namespace Tokens.Spec
open Tokens

/-- How often byte `b` was counted as a piece of its own: as the token for it or as the sequence for
it. -/
def byteUses (st : TokenStats) (b : UInt8) : Nat :=
  ((st.tokenSet.tokens.zip st.tokenCounts).map
    (fun p => if p.1 = Token.str [b] then p.2 else 0)).sum +
  ((st.tokenSet.sequences.zip st.seqCounts).map
    (fun p => if p.1.string = [b] then p.2 else 0)).sum

/-- The number of output tokens that `ts` needs for byte `b`: 1 if it has a token, otherwise the
length of its sequence. -/
def byteCost (ts : TokenSet) (b : UInt8) : Nat :=
  if Token.str [b] ∈ ts.tokens then 1
  else match ts.sequences.find? (fun q => decide (q.string = [b])) with
    | some q => q.tokens.length
    | none => 0

/-- The number of output tokens that `ts` needs for the single bytes counted in `st`. -/
def bytesTotal (ts : TokenSet) (st : TokenStats) : Nat :=
  sumTo 256 (fun c => byteCost ts (UInt8.ofNat c) * byteUses st (UInt8.ofNat c))

/-- `code` is what `ts` writes for the single byte `b`: its token, or the tokens its sequence lists. -/
inductive HasCode (ts : TokenSet) : UInt8 → List (Option Token) → Prop
  | tok {b} : Token.str [b] ∈ ts.tokens → HasCode ts b [some (Token.str [b])]
  | seq {b code} : ([b], code) ∈ meaning ts → HasCode ts b code

/-- As `bytesTotal`, with every byte counted once more than it was seen (so that bytes that were not seen
matter as well). -/
def smoothedTotal (ts : TokenSet) (st : TokenStats) : Nat :=
  sumTo 256 (fun c => byteCost ts (UInt8.ofNat c) * (byteUses st (UInt8.ofNat c) + 1))

/-- How often bytes were counted, each byte once more than it was seen. -/
def smoothedUses (st : TokenStats) : Nat := sumTo 256 (fun c => byteUses st (UInt8.ofNat c) + 1)

/-- Consecutive non-empty groups. -/
def IsSplit (counts : List (UInt8 × Nat)) (parts : Nat) (groups : List (List (UInt8 × Nat))) : Prop :=
  groups.flatten = counts ∧ groups.length = parts ∧ ∀ g ∈ groups, g ≠ []

/-- The number of occurrences that need one token only, if each group has one token for its most frequent
byte (and the other bytes of the group need more). -/
def leaderCount (groups : List (List (UInt8 × Nat))) : Nat :=
  (groups.map (fun g => g.foldl (fun m q => max m q.2) 0)).sum

end Tokens.Spec
