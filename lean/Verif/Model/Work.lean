import Verif.Model.Tokenizer
import Verif.Model.Batch

/-!
`FragmentTokenizer::process_slice` (`/repo/src/tokenizer2.rs:190-272`) with counters: how often each
of its loops goes round.  The definitions repeat those of `Verif/Model/Tokenizer.lean` and count.
-/

namespace Tokens

/-- Rounds of the loops of `process_slice` and `update_stats`. -/
structure Rounds where
  /-- the loop over the bytes, line 196 -/
  bytes : Nat
  /-- the loop over the spans that end at a byte, line 202 -/
  searched : Nat
  /-- the loop back through the text, line 232 -/
  traced : Nat
  /-- the loop over all spans, line 251 -/
  spans : Nat
  deriving DecidableEq, Repr

namespace FragmentTokenizer

/-- src/tokenizer2.rs:199-214 with the number of rounds; see `bestSpan`. -/
def bestSpanW (spans : List Span) (costs : List CostState) :
    Nat → Nat → Option CostState → Nat → R (Option CostState × Nat)
  | 0, _, _, _ => .error .fuel
  | f + 1, spanIdx, best, n =>
    if spanIdx = 0 then .ok (best, n)
    else do
      let span ← getR spans spanIdx
      let at_ ← subR costs.length span.string.length
      let prev ← getR costs at_
      let cost := prev.cost + span.cost
      let best' := match best with
        | none => some { cost := cost, span := spanIdx }
        | some b => if b.cost > cost then some { cost := cost, span := spanIdx } else some b
      bestSpanW spans costs f span.suffixSpan best' (n + 1)

/-- src/tokenizer2.rs:196-217 with the number of rounds of the loop and of the inner loop; see
`processLoop`. -/
def processLoopW (tk : FragmentTokenizer) :
    Bytes → SuffixState → List CostState → Nat → Nat → R (List CostState × Nat × Nat)
  | [], _, costs, k, n => .ok (costs, k, n)
  | byte :: rest, state, costs, k, n => do
    let state' ← getR tk.suffixStates (state.next byte)
    let (best, n') ← bestSpanW tk.spans costs (state'.suffix.length + 1) state'.spanIdx none n
    let c ← unwrapR best
    processLoopW tk rest state' (costs ++ [c]) (k + 1) n'

/-- src/tokenizer2.rs:232-249 with the number of rounds; see `traceback`. -/
def tracebackW (spans : List Span) (costs : List CostState) (ntokens : Nat) :
    Nat → Nat → Option Nat → TraceAcc → Nat → R (TraceAcc × Nat)
  | 0, pos, _, acc, n => if pos = 0 then .ok (acc, n) else .error .fuel
  | f + 1, pos, next, acc, n =>
    if pos = 0 then .ok (acc, n)
    else do
      let cs ← getR costs pos
      let sc ← addAt acc.spanCounts cs.span 1
      let span ← getR spans cs.span
      let pc ← match span.content, next with
        | .token t, some n => addAt acc.pairCounts (t * ntokens + n) 1
        | _, _ => .ok acc.pairCounts
      let next' := match span.content with
        | .token t => some t
        | _ => none
      let pos' ← subR pos span.string.length
      tracebackW spans costs ntokens f pos' next' { spanCounts := sc, pairCounts := pc } (n + 1)

/-- src/tokenizer2.rs:190-272 with the rounds of all loops; see `processSlice`, `updateStats`.  The
last loop (line 251) goes through `spans[1..]`. -/
def processSliceW (tk : FragmentTokenizer) (bytes : Bytes) (stats : TokenStats) :
    R (TokenStats × Rounds) := do
  let start ← getR tk.suffixStates 0
  let (costs, k, n) ← processLoopW tk bytes start [{ cost := 0, span := 0 }] 0 0
  let last ← unwrapR costs.getLast?
  let stats1 := { stats with
    totalTokens := stats.totalTokens + last.cost,
    scannedBytes := stats.scannedBytes + bytes.length }
  let (acc, t) ← tracebackW tk.spans costs stats.tokenSet.ntokens bytes.length bytes.length none
    { spanCounts := List.replicate tk.spans.length 0, pairCounts := stats1.pairCounts } 0
  let st ← foldSpanCounts tk.spans.tail acc.spanCounts.tail { stats1 with pairCounts := acc.pairCounts }
  .ok (st, { bytes := k, searched := n, traced := t, spans := tk.spans.length - 1 })

/-- All rounds of the four loops. -/
def _root_.Tokens.Rounds.all (w : Rounds) : Nat := w.bytes + w.searched + w.traced + w.spans

/-- src/batch_tokenize.rs:20-22 with the rounds of all samples; see `Batch.processAll`. -/
def processAllW (tk : FragmentTokenizer) : List Bytes → TokenStats → R (TokenStats × Nat)
  | [], st => .ok (st, 0)
  | x :: xs, st => do
    let (st', w) ← processSliceW tk x st
    let (st'', k) ← processAllW tk xs st'
    .ok (st'', w.all + k)

end FragmentTokenizer
end Tokens
