import Verif.Model.Batch

/-!
The counting code of `/repo/src/tokenizer2.rs` and `/repo/src/stats2.rs` with the machine addition of
`u64` in the place of the addition of natural numbers.

The functions are those of `Verif/Model/Tokenizer.lean`, `Verif/Model/Stats.lean` and
`Verif/Model/Batch.lean`, except that every `+` and `+=` on a `u64` calls `add`, the addition of the
build: `checkedAdd` (overflow checks on: `cargo build`, `cargo test`) panics and `wrappingAdd`
(`cargo build --release`) drops the carry.  Sums of `usize` values are not concerned: they are
positions inside allocated memory.
-/

namespace Tokens
namespace Machine

/-- The addition of `u64` values that a build uses. -/
abbrev Adder := Nat → Nat → R Nat

/-- `a + b` on `u64` with overflow checks. -/
def checkedAdd : Adder := fun a b => if a + b < 2 ^ 64 then .ok (a + b) else .error .overflow

/-- `a + b` on `u64` without overflow checks. -/
def wrappingAdd : Adder := fun a b => .ok ((a + b) % 2 ^ 64)

/-- `v[i] += n` on a `Vec<u64>`. -/
def addAt (add : Adder) (l : List Nat) (i n : Nat) : R (List Nat) :=
  match l[i]? with
  | some a => do
    let c ← add a n
    .ok (l.set i c)
  | none => .error .index

/-- src/tokenizer2.rs:199-214, with `cost = prev_cost + span.cost` on `u64`. -/
def bestSpan (add : Adder) (spans : List Span) (costs : List CostState) :
    Nat → Nat → Option CostState → R (Option CostState)
  | 0, _, _ => .error .fuel
  | f + 1, spanIdx, best =>
    if spanIdx = 0 then .ok best
    else do
      let span ← getR spans spanIdx
      let at_ ← subR costs.length span.string.length
      let prev ← getR costs at_
      let cost ← add prev.cost span.cost
      let best' := match best with
        | none => some { cost := cost, span := spanIdx }
        | some b => if b.cost > cost then some { cost := cost, span := spanIdx } else some b
      bestSpan add spans costs f span.suffixSpan best'

/-- src/tokenizer2.rs:196-217. -/
def processLoop (add : Adder) (tk : FragmentTokenizer) :
    Bytes → SuffixState → List CostState → R (List CostState)
  | [], _, costs => .ok costs
  | byte :: rest, state, costs => do
    let state' ← getR tk.suffixStates (state.next byte)
    let best ← bestSpan add tk.spans costs (state'.suffix.length + 1) state'.spanIdx none
    let c ← unwrapR best
    processLoop add tk rest state' (costs ++ [c])

/-- src/tokenizer2.rs:232-249. -/
def traceback (add : Adder) (spans : List Span) (costs : List CostState) (ntokens : Nat) :
    Nat → Nat → Option Nat → FragmentTokenizer.TraceAcc → R FragmentTokenizer.TraceAcc
  | 0, pos, _, acc => if pos = 0 then .ok acc else .error .fuel
  | f + 1, pos, next, acc =>
    if pos = 0 then .ok acc
    else do
      let cs ← getR costs pos
      let sc ← addAt add acc.spanCounts cs.span 1
      let span ← getR spans cs.span
      let pc ← match span.content, next with
        | .token t, some n => addAt add acc.pairCounts (t * ntokens + n) 1
        | _, _ => .ok acc.pairCounts
      let next' := match span.content with
        | .token t => some t
        | _ => none
      let pos' ← subR pos span.string.length
      traceback add spans costs ntokens f pos' next' { spanCounts := sc, pairCounts := pc }

/-- src/tokenizer2.rs:258-260. -/
def addCounts (add : Adder) : List Nat → List Nat → Nat → R (List Nat)
  | counts, [], _ => .ok counts
  | counts, t :: ts, n => do
    let counts' ← addAt add counts t n
    addCounts add counts' ts n

/-- src/tokenizer2.rs:251-271. -/
def foldSpanCounts (add : Adder) : List Span → List Nat → TokenStats → R TokenStats
  | [], _, stats => .ok stats
  | _ :: _, [], _ => .error .index
  | sp :: sps, c :: cs, stats => do
    let stats' ← match sp.content with
      | .sequence j => do
        let sc ← addAt add stats.seqCounts j c
        let seq ← getR stats.tokenSet.sequences j
        let tc ← addCounts add stats.tokenCounts seq.tokens c
        .ok { stats with seqCounts := sc, tokenCounts := tc }
      | .token i => do
        let tc ← addAt add stats.tokenCounts i c
        .ok { stats with tokenCounts := tc }
      | .none => .error .unreachable
    foldSpanCounts add sps cs stats'

/-- src/tokenizer2.rs:222-272 `update_stats`. -/
def updateStats (add : Adder) (tk : FragmentTokenizer) (costs : List CostState) (bytes : Bytes)
    (stats : TokenStats) : R TokenStats := do
  let last ← unwrapR costs.getLast?
  let total ← add stats.totalTokens last.cost
  let scanned ← add stats.scannedBytes bytes.length
  let stats1 := { stats with totalTokens := total, scannedBytes := scanned }
  let acc ← traceback add tk.spans costs stats.tokenSet.ntokens bytes.length bytes.length none
    { spanCounts := List.replicate tk.spans.length 0, pairCounts := stats1.pairCounts }
  foldSpanCounts add tk.spans.tail acc.spanCounts.tail { stats1 with pairCounts := acc.pairCounts }

/-- src/tokenizer2.rs:190-220 `process_slice`. -/
def processSlice (add : Adder) (tk : FragmentTokenizer) (bytes : Bytes) (stats : TokenStats) :
    R TokenStats := do
  let start ← getR tk.suffixStates 0
  let costs ← processLoop add tk bytes start [{ cost := 0, span := 0 }]
  updateStats add tk costs bytes stats

/-- The loop of src/batch_tokenize.rs:20-22. -/
def processAll (add : Adder) (tk : FragmentTokenizer) : List Bytes → TokenStats → R TokenStats
  | [], st => .ok st
  | s :: ss, st => do
    let st' ← processSlice add tk s st
    processAll add tk ss st'

/-- src/batch_tokenize.rs:10-25 `tokenize_file_sync`. -/
def tokenizeFileSync (add : Adder) (ts : TokenSet) (samples : List Bytes)
    (initialSize : Option Nat) : R TokenStats := do
  let tk ← FragmentTokenizer.new ts
  processAll add tk samples (TokenStats.new ts initialSize)

/-- src/stats2.rs:74-82. -/
def addVec (add : Adder) : List Nat → List Nat → R (List Nat)
  | [], _ => .ok []
  | _ :: _, [] => .error .index
  | a :: as, b :: bs => do
    let c ← add a b
    let rest ← addVec add as bs
    .ok (c :: rest)

/-- src/stats2.rs:71-83 `merge`. -/
def merge (add : Adder) (s o : TokenStats) : R TokenStats := do
  let total ← add s.totalTokens o.totalTokens
  let scanned ← add s.scannedBytes o.scannedBytes
  let tc ← addVec add s.tokenCounts o.tokenCounts
  let sc ← addVec add s.seqCounts o.seqCounts
  let pc ← addVec add s.pairCounts o.pairCounts
  .ok { s with
        totalTokens := total, scannedBytes := scanned,
        tokenCounts := tc, seqCounts := sc, pairCounts := pc }

open Batch in
/-- src/batch_tokenize.rs:27-101: one step of any thread, as in `Batch.PStep`. -/
inductive PStep (add : Adder) (tk : FragmentTokenizer) : PState → PState → Prop
  /-- line 76: `jobs_tx.send(sample)` when the buffer has room -/
  | send {s x rest} (h : s.main = .sending (x :: rest)) (hq : s.queue.length < queueCap) :
      PStep add tk s { s with main := .sending rest, queue := s.queue ++ [x] }
  /-- line 79: `drop(jobs_tx)` -/
  | close {s} (h : s.main = .sending []) :
      PStep add tk s { s with main := .collecting s.workers.length, closed := true }
  /-- lines 82-83: `results_rx.recv()` and `stats.merge` -/
  | collect {s n r rest st} (h : s.main = .collecting (n + 1)) (hr : s.results = r :: rest)
      (hm : merge add s.stats r = .ok st) :
      PStep add tk s { s with main := .collecting n, results := rest, stats := st }
  /-- line 83: `stats.merge` panics -/
  | collectPanic {s n r rest e} (h : s.main = .collecting (n + 1)) (hr : s.results = r :: rest)
      (hm : merge add s.stats r = .error e) :
      PStep add tk s { s with main := .panicked }
  /-- line 84: all results received -/
  | collected {s} (h : s.main = .collecting 0) :
      PStep add tk s { s with main := .joining s.workers.length }
  /-- line 95: `pop().unwrap().join().unwrap()` of a worker that has ended normally -/
  | join {s n} (h : s.main = .joining (n + 1)) (hw : s.workers[n]? = some .done) :
      PStep add tk s { s with main := .joining n }
  /-- line 95: `join().unwrap()` of a worker that has panicked -/
  | joinPanic {s n} (h : s.main = .joining (n + 1)) (hw : s.workers[n]? = some .panicked) :
      PStep add tk s { s with main := .panicked }
  /-- lines 97-99 -/
  | finish {s} (h : s.main = .joining 0) :
      PStep add tk s { s with main := .returned }
  /-- line 36: worker `i` takes the lock -/
  | lock {s i st} (hw : s.workers[i]? = some (.waiting st)) (hl : s.locked = false) :
      PStep add tk s { s with workers := s.workers.set i (.holding st), locked := true }
  /-- line 36: `recv` returns a job and the lock is released -/
  | recv {s i st x rest} (hw : s.workers[i]? = some (.holding st)) (hq : s.queue = x :: rest) :
      PStep add tk s { s with workers := s.workers.set i (.working st x), queue := rest,
                              locked := false }
  /-- line 36: `recv` reports a closed and empty channel; line 40: `break` -/
  | recvErr {s i st} (hw : s.workers[i]? = some (.holding st)) (hq : s.queue = [])
      (hc : s.closed = true) :
      PStep add tk s { s with workers := s.workers.set i (.sending st), locked := false }
  /-- lines 44-45: the job is tokenized -/
  | process {s i st x st'} (hw : s.workers[i]? = some (.working st x)) (hne : x ≠ [])
      (hp : processSlice add tk x st = .ok st') :
      PStep add tk s { s with workers := s.workers.set i (.waiting st') }
  /-- line 44: the assertion fails, or line 45 panics -/
  | processPanic {s i st x} (hw : s.workers[i]? = some (.working st x))
      (hp : x = [] ∨ ∃ e, processSlice add tk x st = .error e) :
      PStep add tk s { s with workers := s.workers.set i .panicked }
  /-- line 48: `results_tx.send(stats)` -/
  | result {s i st} (hw : s.workers[i]? = some (.sending st)) :
      PStep add tk s { s with workers := s.workers.set i .done, results := s.results ++ [st] }

open Batch in
/-- Any number of steps (`Batch.PSteps`). -/
inductive PSteps (add : Adder) (tk : FragmentTokenizer) : PState → PState → Prop
  | refl (s) : PSteps add tk s s
  | step {a b c} : PSteps add tk a b → PStep add tk b c → PSteps add tk a c

open Batch in
/-- src/batch_tokenize.rs:51-104 `tokenize_file`: what it may return.  `1 << 25` is line 56;
the parallel path returns `stats` of a final state. -/
inductive TokenizeFile (add : Adder) (ts : TokenSet) (sampler : SamplerData) (initialSize : Option Nat)
    (nthreads : Nat) : TokenStats → Prop
  | sync {st} (h : sampler.totalSize < 1 <<< 25)
      (hs : tokenizeFileSync add ts sampler.samples initialSize = .ok st) :
      TokenizeFile add ts sampler initialSize nthreads st
  | par {tk s} (h : ¬ sampler.totalSize < 1 <<< 25) (hn : FragmentTokenizer.new ts = .ok tk)
      (hs : PSteps add tk (pinit ts sampler.samples initialSize nthreads) s)
      (hr : s.main = .returned) :
      TokenizeFile add ts sampler initialSize nthreads s.stats

end Machine
end Tokens
