import Verif.Model.Optimize
open Tokens Optimize OptimizeBytes Batch

def hexDigit (c : Char) : Nat := if c.isDigit then c.toNat - 48 else c.toNat - 87
def unhex (s : String) : Bytes :=
  let rec go : List Char → Bytes
    | a :: b :: t => UInt8.ofNat (hexDigit a * 16 + hexDigit b) :: go t
    | _ => []
  go s.toList
def hex (b : Bytes) : String :=
  let d (n : Nat) : Char := Char.ofNat (if n < 10 then 48 + n else 87 + n)
  String.ofList (b.flatMap fun x => [d (x.toNat / 16), d (x.toNat % 16)])

def showTok : Token → String
  | .str s => hex s
  | .ext n => s!"e{n}"
def showSet (ts : TokenSet) : String :=
  s!"{String.ofList ts.name} {ts.nExt} {ts.splitParagraphs} [{",".intercalate (ts.tokens.map showTok)}] [{",".intercalate (ts.sequences.map fun q => hex q.string ++ ":" ++ ".".intercalate (q.tokens.map toString))}]"
def showPairs (l : List Nat) : String :=
  ",".intercalate ((l.zipIdx.filter (fun p => p.1 ≠ 0)).map fun p => s!"{p.2}={p.1}")
def showStats (st : TokenStats) : String :=
  s!"{showSet st.tokenSet} total {st.totalTokens} scanned {st.scannedBytes} tok {st.tokenCounts} seq {st.seqCounts} pairs {showPairs st.pairCounts}"
def showR {α : Type} (f : α → String) : R α → String
  | .ok a => f a
  | .error _ => "PANIC"

/-- Runs a program: the cache is replaced by tokenizing, sorting is stable, the clock never rings. -/
instance {α : Type} : Inhabited (R α) := ⟨.error .panic⟩

partial def run (samples : List Bytes) {α : Type} : Prog α → R α
  | .pure a => .ok a
  | .fail e => .error e
  | .stats ts k => do
    let ts ← ts.sort
    let st ← tokenizeFileSync ts samples none
    run samples (k st.cloneWithoutPairs)
  | .pairs ts k => do
    let ts ← ts.sort
    let st ← tokenizeFileSync ts samples none
    run samples (k st)
  | .sortUnstable key l k => run samples (k (l.mergeSort (fun a b => decide (key a ≤ key b))))
  | .clock k => run samples (k false)
  | .save _ k => run samples k

partial def loop (samples : List Bytes) (bo : BytesOptimizer) (n : Nat) (ts : TokenSet) (rc : Removals) : R TokenSet := do
  match ← run samples (optimizationStep bo ts n rc) with
  | (none, _) => .ok ts
  | (some ts', rc') => loop samples bo n ts' rc'

def optimize (samples : List Bytes) (ty : TokenType) (n : Nat) (pre : Option TokenSet) : R TokenStats := do
  let ts ← run samples (startSet n .raw ty pre)
  let _ ← run samples (getStats ts)
  let ts ← loop samples (optimizerFor ty) n ts (fun _ => 0)
  run samples (finish ts)

def ty : String → TokenType
  | "bits1" => .bits1 | "bits2" => .bits2 | "bits4" => .bits4 | "bytes" => .bytes | _ => .bytesHuff

def mk (t : String) (strs : List Bytes) : R TokenSet := do
  let ts ← match ty t with
    | .bits1 => TokenSet.newBits1 .raw true | .bits2 => TokenSet.newBits2 .raw true
    | .bits4 => TokenSet.newBits4 .raw true | _ => TokenSet.newBytes .raw
  ts.addTokens strs

partial def main : IO Unit := do
  let stdin ← IO.getStdin
  let rec go : IO Unit := do
    let l ← stdin.getLine
    if l.isEmpty then return
    match (l.trimAscii.toString.splitOn " ") with
    | ["tok", t, strs, texts] =>
      let r : R TokenStats := do
        let ts ← mk t ((strs.splitOn ",").map unhex |>.filter (· ≠ []))
        let ts ← ts.sort
        tokenizeFileSync ts ((texts.splitOn ",").map unhex) none
      IO.println (showR showStats r)
    | ["bytes", t, strs, texts, n, huffN] =>
      let r : R TokenSet := do
        let samples := (texts.splitOn ",").map unhex
        let ts ← mk t ((strs.splitOn ",").map unhex |>.filter (· ≠ []))
        let st ← tokenizeFileSync ts samples none
        let ts' ← optimizerFor (if huffN = "0" then ty t else .bytesHuff) st n.toNat!
        if huffN = "0" then .ok ts' else do
          let st' ← tokenizeFileSync ts' samples none
          optimizerFor .bytesHuff st' huffN.toNat!
      IO.println (showR showSet r)
    | ["opt", t, n, texts] =>
      IO.println (showR showStats (optimize ((texts.splitOn ",").map unhex) (ty t) n.toNat! none))
    | _ => IO.println "?"
    (← IO.getStdout).flush
    go
  go
