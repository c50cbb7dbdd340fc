import Verif.Model.Repeat
import Verif.Model.Disk

/-!
The runs of the commands (`Verif/Model/Main.lean` and `Verif/Model/Disk.lean`, modelling
`/repo/src/main.rs`) in which the surroundings behave the same way every time: `sort_unstable_by_key` is a
function (`Verif/Model/Repeat.lean`), and every `read` of the file sampler fills its buffer unless the file
ends.  Threads and the clock are as free as before.
-/

namespace Tokens
namespace Main
open Input Optimize Batch TokenSet

/-- As `Tokenized`, with full reads (src/main.rs:128-136, 157, 175; src/optimize.rs:428-430). -/
inductive TokenizedFull (m : Machine) (file : Bytes) (ts : TokenSet) (n : Option Nat) : R TokenStats → Prop where
  | ok {sd st} (hs : fileSampler file (1 <<< 24) (fun _ => 1 <<< 24) = .ok sd)
      (ht : TokenizeFile ts sd n m.nthreads st) : TokenizedFull m file ts n (.ok st)
  | sampler {e} (hs : fileSampler file (1 <<< 24) (fun _ => 1 <<< 24) = .error e) :
      TokenizedFull m file ts n (.error e)
  | tokenizer {sd} (hs : fileSampler file (1 <<< 24) (fun _ => 1 <<< 24) = .ok sd)
      (ht : TokenizeFails ts ⟨sd, n, m.nthreads⟩) : TokenizedFull m file ts n (.error .panic)

/-- As `ConvertCommand`, with full reads (src/main.rs:115-142). -/
inductive ConvertFull (m : Machine) (raw : Bytes) (processed : Option Bytes) (input : Json) :
    R (Text × Text) → Prop where
  | load {e} (h : TokenSet.fromJson input = .error e) : ConvertFull m raw processed input (.error e)
  | process {ts e} (h1 : TokenSet.fromJson input = .ok ts)
      (h2 : maybeProcessFile m raw processed ts.processing = .error e) :
      ConvertFull m raw processed input (.error e)
  | tokenize {ts data e} (h1 : TokenSet.fromJson input = .ok ts)
      (h2 : maybeProcessFile m raw processed ts.processing = .ok data)
      (h3 : TokenizedFull m data ts (some raw.length) (.error e)) :
      ConvertFull m raw processed input (.error e)
  | write {ts data st} (h1 : TokenSet.fromJson input = .ok ts)
      (h2 : maybeProcessFile m raw processed ts.processing = .ok data)
      (h3 : TokenizedFull m data ts (some raw.length) (.ok st)) :
      ConvertFull m raw processed input (statsFile m st)

/-- As `Increasing`, with the sort `f` and full reads (src/main.rs:151-197). -/
inductive IncreasingBy (f : SortFn) (m : Machine) (file : Bytes) (ntokens : Nat) (p : Processing)
    (ty : TokenType) (n : Option Nat) : Nat → Option TokenSet → R TokenStats → List (Text × Text) → Prop where
  | exhausted {size ts} (h : ¬ size < file.length) :
      IncreasingBy f m file ntokens p ty n size ts (.error .unwrapNone) []
  | sample {size ts e} (h : size < file.length) (hs : sampleEnv m file size n = .error e) :
      IncreasingBy f m file ntokens p ty n size ts (.error e) []
  | before {size ts env} (h : size < file.length) (hs : sampleEnv m file size n = .ok env)
      (hf : TokenizeFails ts env) : IncreasingBy f m file ntokens p ty n size (some ts) (.error .panic) []
  | optimize {size ts env e w} (h : size < file.length) (hs : sampleEnv m file size n = .ok env)
      (hb : ∀ t, ts = some t → ∃ st, TokenizeFile t env.sampler n m.nthreads st)
      (ho : OptimizeBy f env ntokens p ty ts (.error e) w) :
      IncreasingBy f m file ntokens p ty n size ts (.error e) w.saved
  | full {size ts env st w e} (h : size < file.length) (hs : sampleEnv m file size n = .ok env)
      (hb : ∀ t, ts = some t → ∃ st, TokenizeFile t env.sampler n m.nthreads st)
      (ho : OptimizeBy f env ntokens p ty ts (.ok st) w)
      (hf : TokenizedFull m file st.tokenSet n (.error e)) :
      IncreasingBy f m file ntokens p ty n size ts (.error e) w.saved
  | stop {size ts env st w st'} (h : size < file.length) (hs : sampleEnv m file size n = .ok env)
      (hb : ∀ t, ts = some t → ∃ st, TokenizeFile t env.sampler n m.nthreads st)
      (ho : OptimizeBy f env ntokens p ty ts (.ok st) w)
      (hf : TokenizedFull m file st.tokenSet n (.ok st'))
      (hstop : size > 1 <<< 24 ∧ closeEnough st st' = true) :
      IncreasingBy f m file ntokens p ty n size ts (.ok st') w.saved
  | again {size ts env st w st' r saved} (h : size < file.length)
      (hs : sampleEnv m file size n = .ok env)
      (hb : ∀ t, ts = some t → ∃ st, TokenizeFile t env.sampler n m.nthreads st)
      (ho : OptimizeBy f env ntokens p ty ts (.ok st) w)
      (hf : TokenizedFull m file st.tokenSet n (.ok st'))
      (hstop : ¬ (size > 1 <<< 24 ∧ closeEnough st st' = true))
      (hr : IncreasingBy f m file ntokens p ty n (size * 2) (some st.tokenSet) r saved) :
      IncreasingBy f m file ntokens p ty n size ts r (w.saved ++ saved)

/-- As `Optimized`, with the sort `f` and full reads (src/main.rs:234-243). -/
inductive OptimizedBy (f : SortFn) (m : Machine) (data : Bytes) (ntokens : Nat) (p : Processing)
    (ty : TokenType) (rawSize : Nat) (input : Option TokenSet) :
    Option Nat → R TokenStats → List (Text × Text) → Prop where
  | increasing {size r saved} (h : IncreasingBy f m data ntokens p ty (some rawSize) size input r saved) :
      OptimizedBy f m data ntokens p ty rawSize input (some size) r saved
  | memory {env r w} (hsize : rawSize < 1 <<< 34) (he : memoryEnv m data (some rawSize) = .ok env)
      (h : OptimizeBy f env ntokens p ty input r w) :
      OptimizedBy f m data ntokens p ty rawSize input none r w.saved
  | memoryFail {e} (hsize : rawSize < 1 <<< 34) (he : memoryEnv m data (some rawSize) = .error e) :
      OptimizedBy f m data ntokens p ty rawSize input none (.error e) []
  | file {sd r w} (hsize : ¬ rawSize < 1 <<< 34)
      (he : fileSampler data (1 <<< 24) (fun _ => 1 <<< 24) = .ok sd)
      (h : OptimizeBy f ⟨sd, some rawSize, m.nthreads⟩ ntokens p ty input r w) :
      OptimizedBy f m data ntokens p ty rawSize input none r w.saved
  | fileFail {e} (hsize : ¬ rawSize < 1 <<< 34)
      (he : fileSampler data (1 <<< 24) (fun _ => 1 <<< 24) = .error e) :
      OptimizedBy f m data ntokens p ty rawSize input none (.error e) []

end Main

namespace Disk
open Main Optimize

/-- As `Exec` for convert and optimize, with the sort `f` and full reads (src/main.rs:313-348). -/
inductive ExecBy (f : SortFn) (m : Machine) (d : Files) : Command → R Unit × List (Text × Bytes) → Prop where
  | convertOpen {data processed inputTokens tokensDir e}
      (h : readJson d inputTokens = .error e ∨ openFile d data = .error e ∨
        ∃ v ts, readJson d inputTokens = .ok v ∧ TokenSet.fromJson v = .ok ts ∧
          openProcessed d processed ts.processing = .error e) :
      ExecBy f m d (.convert data processed inputTokens tokensDir) (.error e, [])
  | convertFail {data processed inputTokens tokensDir v raw file e} (hv : readJson d inputTokens = .ok v)
      (hr : openFile d data = .ok raw)
      (hp : ∀ ts, TokenSet.fromJson v = .ok ts → openProcessed d processed ts.processing = .ok file)
      (h : ConvertFull m raw file v (.error e)) :
      ExecBy f m d (.convert data processed inputTokens tokensDir) (.error e, [])
  | convert {data processed inputTokens tokensDir v raw file g} (hv : readJson d inputTokens = .ok v)
      (hr : openFile d data = .ok raw)
      (hp : ∀ ts, TokenSet.fromJson v = .ok ts → openProcessed d processed ts.processing = .ok file)
      (h : ConvertFull m raw file v (.ok g)) :
      ExecBy f m d (.convert data processed inputTokens tokensDir) (attempt d (inDir tokensDir [g]) (.ok ()))
  | optimizeOpen {data processed tokensDir p ty ntokens inputTokens minSize e}
      (h : openFile d data = .error e ∨ openProcessed d processed p = .error e ∨
        openInput d inputTokens = .error e) :
      ExecBy f m d (.optimize data processed tokensDir p ty ntokens inputTokens minSize) (.error e, [])
  | optimizePrepare {data processed tokensDir p ty ntokens inputTokens minSize raw file v e}
      (hr : openFile d data = .ok raw) (hp : openProcessed d processed p = .ok file)
      (hi : openInput d inputTokens = .ok v)
      (h : maybeProcessFile m raw file p = .error e ∨ readInput v = .error e) :
      ExecBy f m d (.optimize data processed tokensDir p ty ntokens inputTokens minSize) (.error e, [])
  | optimizeFail {data processed tokensDir p ty ntokens inputTokens minSize raw file v bytes ts r saved e}
      (hr : openFile d data = .ok raw) (hp : openProcessed d processed p = .ok file)
      (hi : openInput d inputTokens = .ok v) (hd : maybeProcessFile m raw file p = .ok bytes)
      (ht : readInput v = .ok ts) (ho : OptimizedBy f m bytes ntokens p ty raw.length ts minSize r saved)
      (h : r >>= statsFile m = .error e) :
      ExecBy f m d (.optimize data processed tokensDir p ty ntokens inputTokens minSize)
        (attempt d (inDir tokensDir saved) (.error e))
  | optimize {data processed tokensDir p ty ntokens inputTokens minSize raw file v bytes ts st saved g}
      (hr : openFile d data = .ok raw) (hp : openProcessed d processed p = .ok file)
      (hi : openInput d inputTokens = .ok v) (hd : maybeProcessFile m raw file p = .ok bytes)
      (ht : readInput v = .ok ts) (ho : OptimizedBy f m bytes ntokens p ty raw.length ts minSize (.ok st) saved)
      (h : statsFile m st = .ok g) :
      ExecBy f m d (.optimize data processed tokensDir p ty ntokens inputTokens minSize)
        (attempt d (inDir tokensDir (saved ++ [g])) (.ok ()))

end Disk
end Tokens
