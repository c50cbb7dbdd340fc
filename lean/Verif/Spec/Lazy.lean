import Verif.Model.Lazy

/-! What is in memory while the samples are tokenized in parallel. -/

namespace Tokens.Spec
open Tokens Batch

/-- The sample that a worker is at work on. -/
def jobOf : WState → List Bytes
  | .working _ x => [x]
  | _ => []

/-- The statistics that a worker keeps. -/
def counted : WState → Nat
  | .waiting st => st.scannedBytes
  | .holding st => st.scannedBytes
  | .working st _ => st.scannedBytes
  | .sending st => st.scannedBytes
  | .done => 0
  | .panicked => 0

/-- The samples that have been read and are neither counted nor given up: the one the main thread
holds, those in the channel, and those the workers are at work on. -/
def inFlight (s : LState) : List Bytes :=
  s.held.toList ++ s.p.queue ++ s.p.workers.flatMap jobOf

/-- The samples that have not been read yet. -/
def unread (s : LState) : List Bytes :=
  match s.p.main with
  | .sending rest => rest
  | _ => []

/-- The bytes in some samples. -/
def byteSum (l : List Bytes) : Nat := (l.map List.length).sum

/-- The bytes that some thread has counted. -/
def countedBytes (s : LState) : Nat :=
  s.p.stats.scannedBytes + (s.p.results.map TokenStats.scannedBytes).sum +
    (s.p.workers.map counted).sum

end Tokens.Spec
