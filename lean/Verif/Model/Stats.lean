import Verif.Model.TokenSet

/-!
Model of `/repo/src/stats2.rs` (JSON output is in `Verif/Model/Json.lean`).
-/

namespace Tokens

/-- src/stats2.rs:5-16 `struct TokenStats`; `u64` counters are natural numbers. -/
structure TokenStats where
  tokenSet : TokenSet
  totalTokens : Nat
  initialSize : Option Nat
  scannedBytes : Nat
  tokenCounts : List Nat
  seqCounts : List Nat
  pairCounts : List Nat
  deriving DecidableEq, Repr

namespace TokenStats

/-- src/stats2.rs:19-31 `TokenStats::new`. -/
def new (ts : TokenSet) (initialSize : Option Nat) : TokenStats :=
  { tokenSet := ts, totalTokens := 0, initialSize := initialSize, scannedBytes := 0,
    tokenCounts := List.replicate ts.tokens.length 0,
    seqCounts := List.replicate ts.sequences.length 0,
    pairCounts := List.replicate (ts.tokens.length * ts.tokens.length) 0 }

/-- src/stats2.rs:33-43 `clone_without_pairs`. -/
def cloneWithoutPairs (s : TokenStats) : TokenStats := { s with pairCounts := [] }

/-- src/stats2.rs:45-47 `ntokens`. -/
def ntokens (s : TokenStats) : Nat := s.tokenSet.ntokens

/-- The loop `for i in 0..a.len() { a[i] += b[i] }` (src/stats2.rs:74-82); a panic if `b` is
shorter than `a`. -/
def addVec : List Nat → List Nat → R (List Nat)
  | [], _ => .ok []
  | _ :: _, [] => .error .index
  | a :: as, b :: bs => do
    let rest ← addVec as bs
    .ok ((a + b) :: rest)

/-- src/stats2.rs:71-83 `merge`. -/
def merge (s o : TokenStats) : R TokenStats := do
  let tc ← addVec s.tokenCounts o.tokenCounts
  let sc ← addVec s.seqCounts o.seqCounts
  let pc ← addVec s.pairCounts o.pairCounts
  .ok { s with
        totalTokens := s.totalTokens + o.totalTokens,
        scannedBytes := s.scannedBytes + o.scannedBytes,
        tokenCounts := tc, seqCounts := sc, pairCounts := pc }

end TokenStats
end Tokens
