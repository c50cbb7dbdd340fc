import Verif.Model.Batch
import Verif.Model.Sampler

/-!
The parallel path of `tokenize_file` (`/repo/src/batch_tokenize.rs:57-101`) with the reading of the
samples as separate steps, and with a sampler that may panic.

In `Verif/Model/Batch.lean` taking a sample from the iterator and sending it is one step.  Here
they are two: the main thread holds one sample while `send` (line 76) waits for room.  The iterator
delivers the listed samples and then either ends or panics (`File::read` fails, or
`Sample::from_vec` panics; src/input/file_sampler.rs:73-116, src/input/sample.rs:9-11).
-/

namespace Tokens
namespace Batch

structure LState where
  /-- the threads and channels, as in `Verif/Model/Batch.lean`; `main = .sending rest` means that
  the iterator has still to deliver `rest` -/
  p : PState
  /-- the sample that the iterator has delivered and that is not yet in the channel (lines 75-76) -/
  held : Option Bytes
  /-- the iterator has panicked; the main thread leaves the closure of `thread::scope` (line 64) -/
  unwinding : Bool

/-- State after spawning the workers (lines 57-72). -/
def linit (ts : TokenSet) (samples : List Bytes) (initialSize : Option Nat) (nthreads : Nat) :
    LState :=
  { p := pinit ts samples initialSize nthreads, held := none, unwinding := false }

/-- One step of any thread.  `fails`: the iterator panics after the listed samples. -/
inductive LStep (tk : FragmentTokenizer) (fails : Bool) : LState → LState → Prop
  /-- line 75: the iterator delivers a sample -/
  | read {s x rest} (h : s.p.main = .sending (x :: rest)) (hh : s.held = none) :
      LStep tk fails s { s with p := { s.p with main := .sending rest }, held := some x }
  /-- line 76: `jobs_tx.send(sample)` when the buffer has room -/
  | send {s x} (hh : s.held = some x) (hq : s.p.queue.length < queueCap) :
      LStep tk fails s { s with p := { s.p with queue := s.p.queue ++ [x] }, held := none }
  /-- line 75: the iterator has ended; line 79: `drop(jobs_tx)` -/
  | close {s} (h : s.p.main = .sending []) (hh : s.held = none) (hf : fails = false)
      (hu : s.unwinding = false) :
      LStep tk fails s
        { s with p := { s.p with main := .collecting s.p.workers.length, closed := true } }
  /-- line 75: the iterator panics.  The closure owns `jobs_tx` (line 79 moves it), so unwinding
  drops it and closes the channel. -/
  | fail {s} (h : s.p.main = .sending []) (hh : s.held = none) (hf : fails = true)
      (hu : s.unwinding = false) :
      LStep tk fails s { s with p := { s.p with closed := true }, unwinding := true }
  /-- `thread::scope` waits for all threads and then goes on with the panic -/
  | unwound {s} (hu : s.unwinding = true) (hm : s.p.main = .sending [])
      (hw : ∀ w ∈ s.p.workers, w = .done ∨ w = .panicked) :
      LStep tk fails s { s with p := { s.p with main := .panicked } }
  /-- lines 81-101: the main thread after the channel has been closed -/
  | main {s p'} (hp : PStep tk s.p p') (hm : ∀ rest, s.p.main ≠ .sending rest) :
      LStep tk fails s { s with p := p' }
  /-- a step of a worker (lines 27-49) -/
  | worker {s p'} (hp : PStep tk s.p p') (hm : p'.main = s.p.main) :
      LStep tk fails s { s with p := p' }

/-- Any number of steps. -/
inductive LSteps (tk : FragmentTokenizer) (fails : Bool) : LState → LState → Prop
  | refl (s) : LSteps tk fails s s
  | step {a b c} : LSteps tk fails a b → LStep tk fails b c → LSteps tk fails a c

/-- src/input/file_sampler.rs:96-115 with src/input/sample.rs:9-11: the samples that the iterator
delivers for the chunks it reads, and whether it then panics (`String::from_utf8(..).unwrap()`). -/
def deliver : List Bytes → List Bytes × Bool
  | [] => ([], false)
  | x :: xs =>
    if validUtf8 x then
      let (l, f) := deliver xs
      (x :: l, f)
    else ([], true)

end Batch
end Tokens
