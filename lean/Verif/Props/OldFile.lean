import Verif.Props.OldOptimizer

/-!
# Property C100: what a file of the first generation says

Read together with `Verif/Model/OldAll.lean`: `fileJson` is the value that is written (`/repo/src/tokens.rs:320-379`).
`Json.get? v k` is the member `k` of an object.
-/

namespace Tokens.Props
open Tokens Old Spec.Old

/-- How many bits a literal is written in, where this is a number of bits. -/
def literalBits : LiteralEncoding → Option Nat
  | .bits1 => some 1
  | .bits2 => some 2
  | .bits4 => some 4
  | _ => none

/-- Literals whose numbers are saved. -/
def hasCounts : LiteralEncoding → Bool
  | .dist2 | .dist4 | .dist8 => true
  | _ => false

/-- C100 (what the file says).  For every set and statistics: the list of tokens has an element for every reserved token
and every token of the set; the statistics are saved under their names, the final number of tokens being the tokens and
what the literals need; the numbers of literals are saved exactly if literals are a distribution, and the number of bits
exactly if they are written in bits. -/
theorem C100_file_says (fl : OFloats) (size : Nat) (p : Text) (ts : OSet) (st : OStats) :
    (fileJson fl size p ts st).get? "processing" = some (.str p) ∧
    (∃ l, (fileJson fl size p ts st).get? "tokens" = some (.arr l) ∧
      l.length = ts.literal.reservedTokens + ts.tokens.length) ∧
    (∃ s, (fileJson fl size p ts st).get? "stats" = some s ∧
      s.get? "ntokens" = some (.num (st.tokenCount.length + ts.literal.reservedTokens : Nat)) ∧
      s.get? "initial_size" = some (.num size) ∧ s.get? "scanned_bytes" = some (.num st.scannedBytes) ∧
      s.get? "literal_cost" = some (.num st.literalCost) ∧ s.get? "total_cost" = some (.num st.cost) ∧
      s.get? "total_tokens" = some (.num st.totalTokens) ∧ s.get? "total_literals" = some (.num st.totalLiterals) ∧
      s.get? "final_tokens" = some (.num (st.totalTokens + ts.literal.tokensInLiteral * st.totalLiterals : Nat)) ∧
      s.get? "bytes_per_token" = some (fl.bytesPerToken size
        (st.totalTokens + ts.literal.tokensInLiteral * st.totalLiterals)) ∧
      s.get? "literal_dist_entropy" = some (fl.entropy ts st) ∧
      s.get? "cost_per_byte" = some (fl.costPerByte st.cost size)) ∧
    (fileJson fl size p ts st).get? "literal_count" =
      (if hasCounts ts.literal then some (.arr (st.literalCount.map (fun n : Nat => Json.num (n : Int)))) else none) ∧
    (fileJson fl size p ts st).get? "fallback_bits" =
      (literalBits ts.literal).map (fun n : Nat => Json.num (n : Int)) := by
  refine ⟨?_, ⟨tokensJson ts, ?_, by simp [tokensJson]⟩, ⟨st.toJson fl ts size, ?_, ?_⟩, ?_, ?_⟩
  · cases h : ts.literal <;> simp [fileJson, Json.get?, literalJson, h, List.lookup, kTokens, kStats, kProcessing, kType, kBits, kCounts]
  · simp [fileJson, Json.get?, List.lookup, kTokens, kStats]
  · simp [fileJson, Json.get?, List.lookup, kTokens, kStats]
  · simp [OStats.toJson, Json.get?, List.lookup, natJson]
  · cases h : ts.literal <;> simp [fileJson, Json.get?, literalJson, h, hasCounts, List.lookup, kTokens, kStats, kProcessing, kType, kBits, kCounts, natJson] <;> rfl
  · cases h : ts.literal <;> simp [fileJson, Json.get?, literalJson, h, literalBits, List.lookup, kTokens, kStats, kProcessing, kType, kBits, kCounts, natJson]

-- a set whose literals are a distribution: the numbers of literals are in its file
example : ∃ ts, Made ts ∧ ts.literal = .dist8 ∧ ∀ fl size p st, (fileJson fl size p ts st).get? "literal_count" =
    some (.arr (st.literalCount.map (fun n : Nat => Json.num (n : Int)))) := by
  obtain ⟨ts, h1⟩ : ∃ ts, OSet.new .dist8 = .ok ts := ⟨_, rfl⟩
  have h3 : ts.literal = .dist8 := (new_strings h1).2.2
  refine ⟨ts, .new h1, h3, fun fl size p st => ?_⟩
  rw [(C100_file_says fl size p ts st).2.2.2.1, h3]
  rfl

end Tokens.Props
