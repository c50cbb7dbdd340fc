import Verif.Model.Tokenizer

/-!
Model of `/repo/src/batch_tokenize.rs`, lines 10-104: sequential and parallel tokenization.
A sampler (`src/input/sample.rs:35-41`) is the list of samples its iterator yields together with
its `total_size`; the samplers themselves are modelled in `Verif/Model/Sampler.lean`.
-/

namespace Tokens

/-- src/input/sample.rs:35-41 `trait Sampler`, seen by the tokenizer. -/
structure SamplerData where
  samples : List Bytes
  totalSize : Nat

namespace Batch
open FragmentTokenizer

/-- The loop of src/batch_tokenize.rs:20-22. -/
def processAll (tk : FragmentTokenizer) : List Bytes → TokenStats → R TokenStats
  | [], st => .ok st
  | s :: ss, st => do
    let st' ← processSlice tk s st
    processAll tk ss st'

/-- src/batch_tokenize.rs:10-25 `tokenize_file_sync`. -/
def tokenizeFileSync (ts : TokenSet) (samples : List Bytes) (initialSize : Option Nat) :
    R TokenStats := do
  let tk ← FragmentTokenizer.new ts
  processAll tk samples (TokenStats.new ts initialSize)

/-! ### The parallel path as a transition system

One rule per visible action.  The mutex around the receiver (line 61, 36) is explicit: a worker
first takes the lock, then waits in `recv` holding it. -/

/-- Where a worker is in src/batch_tokenize.rs:27-49. -/
inductive WState where
  /-- line 36, before the lock is taken -/
  | waiting (st : TokenStats)
  /-- line 36, holding the lock, inside `recv` -/
  | holding (st : TokenStats)
  /-- lines 37-45, with a job -/
  | working (st : TokenStats) (job : Bytes)
  /-- line 48, after the channel was found closed -/
  | sending (st : TokenStats)
  | done
  | panicked

/-- Where the main thread is in src/batch_tokenize.rs:64-101. -/
inductive MState where
  /-- lines 75-77, samples still to send -/
  | sending (rest : List Bytes)
  /-- lines 81-84, `n` results still to receive -/
  | collecting (n : Nat)
  /-- lines 94-96, join handles `0 .. n-1` still to be joined -/
  | joining (n : Nat)
  /-- line 99 -/
  | returned
  | panicked

structure PState where
  main : MState
  /-- buffer of the bounded job channel (line 60), oldest first -/
  queue : List Bytes
  /-- `jobs_tx` has been dropped (line 79) -/
  closed : Bool
  /-- a worker holds the mutex -/
  locked : Bool
  workers : List WState
  /-- buffer of the unbounded result channel (line 62), oldest first -/
  results : List TokenStats
  /-- `stats` of the main thread -/
  stats : TokenStats

/-- Capacity of the job channel, line 60. -/
def queueCap : Nat := 4

/-- State after spawning `nthreads` workers (lines 57-72). -/
def pinit (ts : TokenSet) (samples : List Bytes) (initialSize : Option Nat) (nthreads : Nat) :
    PState :=
  { main := .sending samples, queue := [], closed := false, locked := false,
    workers := List.replicate nthreads (.waiting (TokenStats.new ts none)),
    results := [], stats := TokenStats.new ts initialSize }

/-- One step of any thread. -/
inductive PStep (tk : FragmentTokenizer) : PState → PState → Prop
  /-- line 76: `jobs_tx.send(sample)` when the buffer has room -/
  | send {s x rest} (h : s.main = .sending (x :: rest)) (hq : s.queue.length < queueCap) :
      PStep tk s { s with main := .sending rest, queue := s.queue ++ [x] }
  /-- line 79: `drop(jobs_tx)` -/
  | close {s} (h : s.main = .sending []) :
      PStep tk s { s with main := .collecting s.workers.length, closed := true }
  /-- lines 82-83: `results_rx.recv()` and `stats.merge` -/
  | collect {s n r rest st} (h : s.main = .collecting (n + 1)) (hr : s.results = r :: rest)
      (hm : s.stats.merge r = .ok st) :
      PStep tk s { s with main := .collecting n, results := rest, stats := st }
  /-- line 83: `stats.merge` panics -/
  | collectPanic {s n r rest e} (h : s.main = .collecting (n + 1)) (hr : s.results = r :: rest)
      (hm : s.stats.merge r = .error e) :
      PStep tk s { s with main := .panicked }
  /-- line 84: all results received -/
  | collected {s} (h : s.main = .collecting 0) :
      PStep tk s { s with main := .joining s.workers.length }
  /-- line 95: `pop().unwrap().join().unwrap()` of a worker that has ended normally -/
  | join {s n} (h : s.main = .joining (n + 1)) (hw : s.workers[n]? = some .done) :
      PStep tk s { s with main := .joining n }
  /-- line 95: `join().unwrap()` of a worker that has panicked -/
  | joinPanic {s n} (h : s.main = .joining (n + 1)) (hw : s.workers[n]? = some .panicked) :
      PStep tk s { s with main := .panicked }
  /-- lines 97-99 -/
  | finish {s} (h : s.main = .joining 0) :
      PStep tk s { s with main := .returned }
  /-- line 36: worker `i` takes the lock -/
  | lock {s i st} (hw : s.workers[i]? = some (.waiting st)) (hl : s.locked = false) :
      PStep tk s { s with workers := s.workers.set i (.holding st), locked := true }
  /-- line 36: `recv` returns a job and the lock is released -/
  | recv {s i st x rest} (hw : s.workers[i]? = some (.holding st)) (hq : s.queue = x :: rest) :
      PStep tk s { s with workers := s.workers.set i (.working st x), queue := rest,
                          locked := false }
  /-- line 36: `recv` reports a closed and empty channel; line 40: `break` -/
  | recvErr {s i st} (hw : s.workers[i]? = some (.holding st)) (hq : s.queue = [])
      (hc : s.closed = true) :
      PStep tk s { s with workers := s.workers.set i (.sending st), locked := false }
  /-- lines 44-45: the job is tokenized -/
  | process {s i st x st'} (hw : s.workers[i]? = some (.working st x)) (hne : x ≠ [])
      (hp : processSlice tk x st = .ok st') :
      PStep tk s { s with workers := s.workers.set i (.waiting st') }
  /-- line 44: the assertion fails, or line 45 panics -/
  | processPanic {s i st x} (hw : s.workers[i]? = some (.working st x))
      (hp : x = [] ∨ ∃ e, processSlice tk x st = .error e) :
      PStep tk s { s with workers := s.workers.set i .panicked }
  /-- line 48: `results_tx.send(stats)` -/
  | result {s i st} (hw : s.workers[i]? = some (.sending st)) :
      PStep tk s { s with workers := s.workers.set i .done, results := s.results ++ [st] }

/-- Any number of steps. -/
inductive PSteps (tk : FragmentTokenizer) : PState → PState → Prop
  | refl (s) : PSteps tk s s
  | step {a b c} : PSteps tk a b → PStep tk b c → PSteps tk a c

/-- src/batch_tokenize.rs:51-104 `tokenize_file`: what it may return.  `1 << 25` is line 56;
the parallel path returns `stats` of a final state. -/
inductive TokenizeFile (ts : TokenSet) (sampler : SamplerData) (initialSize : Option Nat)
    (nthreads : Nat) : TokenStats → Prop
  | sync {st} (h : sampler.totalSize < 1 <<< 25)
      (hs : tokenizeFileSync ts sampler.samples initialSize = .ok st) :
      TokenizeFile ts sampler initialSize nthreads st
  | par {tk s} (h : ¬ sampler.totalSize < 1 <<< 25) (hn : FragmentTokenizer.new ts = .ok tk)
      (hs : PSteps tk (pinit ts sampler.samples initialSize nthreads) s)
      (hr : s.main = .returned) :
      TokenizeFile ts sampler initialSize nthreads s.stats

end Batch
end Tokens
