import Verif.Model.Sampler
open Tokens Input
def hexDigit (c : Char) : Nat := if c.isDigit then c.toNat - 48 else c.toNat - 87
def unhex (s : String) : Bytes :=
  let rec go : List Char → Bytes
    | a :: b :: t => UInt8.ofNat (hexDigit a * 16 + hexDigit b) :: go t
    | _ => []
  go s.toList
def hex (b : Bytes) : String :=
  let d (n : Nat) : Char := Char.ofNat (if n < 10 then 48 + n else 87 + n)
  String.ofList (b.flatMap fun x => [d (x.toNat / 16), d (x.toNat % 16)])

def showR {α : Type} (f : α → String) : R α → String
  | .ok a => f a
  | .error _ => "PANIC"
def showL (l : List Bytes) : String := ",".intercalate (l.map hex)
partial def main : IO Unit := do
  let stdin ← IO.getStdin
  let rec go : IO Unit := do
    let l ← stdin.getLine
    if l.isEmpty then return
    let w := (l.dropEndWhile (· == '\n')).toString.splitOn " "
    match w with
    | ["mem", n, d] =>
      IO.println (showR (fun s => showL s.samples) (memorySampler { data := unhex d, chunkSize := n.toNat! }))
    | ["file", n, d] =>
      IO.println (showR (fun s => showL s.samples) (fileSampler (unhex d) n.toNat! (fun _ => 1000000)))
    | ["pre", n, m, d] =>
      IO.println (showR (fun s => showL ((preloadedSampler s).samples)) (preloaded (unhex d) n.toNat! m.toNat! (fun _ => 1000000)))
    | ["lossy", d] => IO.println (hex (fromBytes (unhex d)))
    | ["sample", n, d] =>
      IO.println (showR (fun m => hex m.data) (sampleFromFile (unhex d) n.toNat! 10))
    | _ => IO.println "?"
    go
  go
