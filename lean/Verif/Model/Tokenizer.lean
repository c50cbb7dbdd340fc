import Verif.Model.Stats

/-!
Model of `/repo/src/tokenizer2.rs`: `FragmentTokenizer`.
-/

namespace Tokens

/-- src/tokenizer2.rs:6-11 `enum SpanContent`. -/
inductive SpanContent where
  | none
  | token (i : Nat)
  | sequence (j : Nat)
  deriving DecidableEq, Repr

/-- src/tokenizer2.rs:13-24 `struct Span`. -/
structure Span where
  content : SpanContent
  string : Bytes
  suffixSpan : Nat
  cost : Nat
  deriving DecidableEq, Repr

/-- src/tokenizer2.rs:26-41 `struct SuffixState`; `next: [usize; 256]` is a function on bytes. -/
structure SuffixState where
  suffix : Bytes
  spanIdx : Nat
  next : UInt8 → Nat

/-- src/tokenizer2.rs:43-47 `struct CostState`. -/
structure CostState where
  cost : Nat
  span : Nat
  deriving DecidableEq, Repr

/-- src/tokenizer2.rs:49-54 `struct FragmentTokenizer`. -/
structure FragmentTokenizer where
  tokenSet : TokenSet
  spans : List Span
  suffixStates : List SuffixState

namespace FragmentTokenizer

/-- src/tokenizer2.rs:79-96: the loop over tokens of `create_spans`, at token index `idx`. -/
def addTokenSpans : List Token → Nat → List Span → StrMap → R (List Span × StrMap)
  | [], _, spans, m => .ok (spans, m)
  | .ext _ :: ts, idx, spans, m => addTokenSpans ts (idx + 1) spans m
  | .str s :: ts, idx, spans, m =>
    if (m s).isSome then .error .panic
    else addTokenSpans ts (idx + 1)
      (spans ++ [{ content := .token idx, string := s, suffixSpan := 0, cost := 1 }])
      (m.insert s spans.length)

/-- src/tokenizer2.rs:98-109: the loop over sequences of `create_spans`, at sequence index `idx`. -/
def addSeqSpans : List Sequence → Nat → List Span → StrMap → R (List Span × StrMap)
  | [], _, spans, m => .ok (spans, m)
  | seq :: ss, idx, spans, m =>
    if (m seq.string).isSome then .error .assertFailed
    else addSeqSpans ss (idx + 1)
      (spans ++ [{ content := .sequence idx, string := seq.string, suffixSpan := 0,
                   cost := seq.tokens.length }])
      (m.insert seq.string spans.length)

/-- src/tokenizer2.rs:111-120: populate `suffix_span` of the spans `spans[1..]`; `1..=(len - 1)`
underflows for an empty string. -/
def populateSuffixSpans (m : StrMap) : List Span → R (List Span)
  | [] => .ok []
  | sp :: rest => do
    let _ ← subR sp.string.length 1
    let rest' ← populateSuffixSpans m rest
    .ok ({ sp with suffixSpan := (firstSuffix m sp.string.tail).getD sp.suffixSpan } :: rest')

/-- src/tokenizer2.rs:67-123 `create_spans`. -/
def createSpans (ts : TokenSet) : R (List Span × StrMap) := do
  let empty : Span := { content := .none, string := [], suffixSpan := 0, cost := 0 }
  let m0 : StrMap := StrMap.insert (fun _ => none) [] 0
  let (spans1, m1) ← addTokenSpans ts.tokens 0 [empty] m0
  let (spans2, m2) ← addSeqSpans ts.sequences 0 spans1 m1
  match spans2 with
  | [] => .error .index
  | first :: rest => do
    let rest' ← populateSuffixSpans m2 rest
    .ok (first :: rest', m2)

/-- A suffix state before its transition table is filled in (src/tokenizer2.rs:156). -/
structure ProtoState where
  suffix : Bytes
  spanIdx : Nat
  deriving DecidableEq, Repr

/-- src/tokenizer2.rs:137-160: the inner loop over `end in 1..=len` for one span string `s`;
the list argument holds the remaining values of `end`. -/
def addPrefixStates (spanBy : StrMap) (s : Bytes) :
    List Nat → List ProtoState → StrMap → R (List ProtoState × StrMap)
  | [], states, m => .ok (states, m)
  | e :: es, states, m =>
    let pre := s.take e
    if (m pre).isSome then addPrefixStates spanBy s es states m
    else do
      let suffixSpan := (firstSuffix spanBy pre).getD 0
      rassert (decide (suffixSpan > 0))
      addPrefixStates spanBy s es (states ++ [{ suffix := pre, spanIdx := suffixSpan }])
        (m.insert pre states.length)

/-- src/tokenizer2.rs:136-161: the loop over all spans. -/
def addAllPrefixStates (spanBy : StrMap) :
    List Span → List ProtoState → StrMap → R (List ProtoState × StrMap)
  | [], states, m => .ok (states, m)
  | sp :: rest, states, m => do
    let (states', m') ←
      addPrefixStates spanBy sp.string ((List.range sp.string.length).map (· + 1)) states m
    addAllPrefixStates spanBy rest states' m'

/-- src/tokenizer2.rs:163-185: fill in the transition tables; every entry is asserted non-zero. -/
def fillNext (stateBy : StrMap) : List ProtoState → R (List SuffixState)
  | [] => .ok []
  | st :: rest => do
    rassert (allBytes.all (fun b => decide ((firstSuffix stateBy (st.suffix ++ [b])).getD 0 > 0)))
    let rest' ← fillNext stateBy rest
    .ok ({ suffix := st.suffix, spanIdx := st.spanIdx,
           next := fun b => (firstSuffix stateBy (st.suffix ++ [b])).getD 0 } :: rest')

/-- src/tokenizer2.rs:125-188 `create_suffix_states`. -/
def createSuffixStates (spans : List Span) (spanBy : StrMap) : R (List SuffixState) := do
  let m0 : StrMap := StrMap.insert (fun _ => none) [] 0
  let (states, m) ← addAllPrefixStates spanBy spans [{ suffix := [], spanIdx := 0 }] m0
  fillNext m states

/-- src/tokenizer2.rs:57-65 `FragmentTokenizer::new`. -/
def new (ts : TokenSet) : R FragmentTokenizer := do
  let (spans, m) ← createSpans ts
  let states ← createSuffixStates spans m
  .ok { tokenSet := ts, spans := spans, suffixStates := states }

/-- src/tokenizer2.rs:199-214: the `while span_idx != 0` loop for one byte.  The first argument
bounds the number of rounds. -/
def bestSpan (spans : List Span) (costs : List CostState) :
    Nat → Nat → Option CostState → R (Option CostState)
  | 0, _, _ => .error .fuel
  | f + 1, spanIdx, best =>
    if spanIdx = 0 then .ok best
    else do
      let span ← getR spans spanIdx
      let at_ ← subR costs.length span.string.length
      let prev ← getR costs at_
      let cost := prev.cost + span.cost
      let best' := match best with
        | none => some { cost := cost, span := spanIdx }
        | some b => if b.cost > cost then some { cost := cost, span := spanIdx } else some b
      bestSpan spans costs f span.suffixSpan best'

/-- src/tokenizer2.rs:196-217: the loop over the bytes, with the current suffix state and the cost
table built so far. -/
def processLoop (tk : FragmentTokenizer) :
    Bytes → SuffixState → List CostState → R (List CostState)
  | [], _, costs => .ok costs
  | byte :: rest, state, costs => do
    let state' ← getR tk.suffixStates (state.next byte)
    let best ← bestSpan tk.spans costs (state'.suffix.length + 1) state'.spanIdx none
    let c ← unwrapR best
    processLoop tk rest state' (costs ++ [c])

/-- Accumulator of the traceback of `update_stats`: `span_counts` and `stats.pair_counts`. -/
structure TraceAcc where
  spanCounts : List Nat
  pairCounts : List Nat
  deriving DecidableEq, Repr

/-- src/tokenizer2.rs:232-249: the `while pos > 0` loop of `update_stats`; the first argument
bounds the number of rounds. -/
def traceback (spans : List Span) (costs : List CostState) (ntokens : Nat) :
    Nat → Nat → Option Nat → TraceAcc → R TraceAcc
  | 0, pos, _, acc => if pos = 0 then .ok acc else .error .fuel
  | f + 1, pos, next, acc =>
    if pos = 0 then .ok acc
    else do
      let cs ← getR costs pos
      let sc ← addAt acc.spanCounts cs.span 1
      let span ← getR spans cs.span
      let pc ← match span.content, next with
        | .token t, some n => addAt acc.pairCounts (t * ntokens + n) 1
        | _, _ => .ok acc.pairCounts
      let next' := match span.content with
        | .token t => some t
        | _ => none
      let pos' ← subR pos span.string.length
      traceback spans costs ntokens f pos' next' { spanCounts := sc, pairCounts := pc }

/-- src/tokenizer2.rs:258-260: `for &token_id in seq.tokens { token_counts[token_id] += count }`. -/
def addCounts : List Nat → List Nat → Nat → R (List Nat)
  | counts, [], _ => .ok counts
  | counts, t :: ts, n => do
    let counts' ← addAt counts t n
    addCounts counts' ts n

/-- src/tokenizer2.rs:251-271: the final loop over `spans[1..]` with the span counts. -/
def foldSpanCounts : List Span → List Nat → TokenStats → R TokenStats
  | [], _, stats => .ok stats
  | _ :: _, [], _ => .error .index
  | sp :: sps, c :: cs, stats => do
    let stats' ← match sp.content with
      | .sequence j => do
        let sc ← addAt stats.seqCounts j c
        let seq ← getR stats.tokenSet.sequences j
        let tc ← addCounts stats.tokenCounts seq.tokens c
        .ok { stats with seqCounts := sc, tokenCounts := tc }
      | .token i => do
        let tc ← addAt stats.tokenCounts i c
        .ok { stats with tokenCounts := tc }
      | .none => .error .unreachable
    foldSpanCounts sps cs stats'

/-- src/tokenizer2.rs:222-272 `update_stats`. -/
def updateStats (tk : FragmentTokenizer) (costs : List CostState) (bytes : Bytes)
    (stats : TokenStats) : R TokenStats := do
  let last ← unwrapR costs.getLast?
  let stats1 := { stats with
    totalTokens := stats.totalTokens + last.cost,
    scannedBytes := stats.scannedBytes + bytes.length }
  let acc ← traceback tk.spans costs stats.tokenSet.ntokens bytes.length bytes.length none
    { spanCounts := List.replicate tk.spans.length 0, pairCounts := stats1.pairCounts }
  foldSpanCounts tk.spans.tail acc.spanCounts.tail { stats1 with pairCounts := acc.pairCounts }

/-- src/tokenizer2.rs:190-220 `process_slice`.  The reusable buffer `cost_state` is cleared on
entry, so it is not an input of the model. -/
def processSlice (tk : FragmentTokenizer) (bytes : Bytes) (stats : TokenStats) : R TokenStats := do
  let start ← getR tk.suffixStates 0
  let costs ← processLoop tk bytes start [{ cost := 0, span := 0 }]
  updateStats tk costs bytes stats

end FragmentTokenizer
end Tokens
