import Verif.Model.Log

/-!
The commands of `/repo/src/main.rs` with their console output: the relations of `Verif/Model/Main.lean`
with the `println!`s at the places where the code has them.  As there, a file is its contents: the names of
the data files, which some lines show, are left out.  That printing changes nothing else is a theorem
(C114).
-/

namespace Tokens
namespace Main
open Batch Optimize Input

/-- What is printed by one call of `print!` or `println!` in a command. -/
inductive Note where
  /-- src/main.rs:36 -/
  | preprocessing
  /-- src/main.rs:40 -/
  | done
  /-- src/main.rs:215 -/
  | reading
  /-- src/main.rs:221-224 -/
  | start (ntokens : Nat)
  /-- src/main.rs:165 -/
  | sample (size : Nat)
  /-- src/main.rs:169: `bytes_per_token` of these statistics, for `(bigger data)` -/
  | bigger (st : TokenStats)
  /-- src/main.rs:173: for `(optimized)` -/
  | optimized (st : TokenStats)
  /-- src/main.rs:176-179: for `(full data)` -/
  | full (st : TokenStats)
  /-- src/main.rs:186 -/
  | stopping
  /-- src/main.rs:128 -/
  | opening
  /-- src/main.rs:131-135 -/
  | tokenizing (name : Text)
  /-- src/main.rs:139, 146: the name within the directory -/
  | writing (name : Text)
  /-- printed by the optimizer (src/optimize.rs) -/
  | opt (e : Printed)

/-- src/main.rs:27-45 `maybe_process_file`: what is printed. -/
def processNotes (m : Machine) (raw : Bytes) (processed : Option Bytes) (p : Processing) : List Note :=
  match processed, p with
  | _, .raw => []
  | some _, .capsWords => []
  | none, .capsWords =>
    match maybeProcessFile m raw processed p with
    | .ok _ => [.preprocessing, .done]
    | .error _ => [.preprocessing]

/-- src/main.rs:167-170: the statistics of the token set at hand. -/
inductive Before (m : Machine) (env : Env) (n : Option Nat) : Option TokenSet → List Note → Prop where
  | none : Before m env n none []
  | some {t st} (h : TokenizeFile t env.sampler n m.nthreads st) : Before m env n (some t) [.bigger st]

/-- src/main.rs:151-197 `optimize_with_increasing_data`, from the head of the loop, as
`Main.Increasing`, with what is printed. -/
inductive IncreasingT (m : Machine) (file : Bytes) (ntokens : Nat) (p : Processing) (ty : TokenType)
    (n : Option Nat) : Nat → Option TokenSet → R TokenStats → List (Text × Text) → List Note → Prop where
  | exhausted {size ts} (h : ¬ size < file.length) :
      IncreasingT m file ntokens p ty n size ts (.error .unwrapNone) [] []
  | sample {size ts e} (h : size < file.length) (hs : sampleEnv m file size n = .error e) :
      IncreasingT m file ntokens p ty n size ts (.error e) [] []
  | before {size ts env} (h : size < file.length) (hs : sampleEnv m file size n = .ok env)
      (hf : TokenizeFails ts env) :
      IncreasingT m file ntokens p ty n size (some ts) (.error .panic) [] [.sample env.sampler.totalSize]
  | optimize {size ts env e w o out} (h : size < file.length) (hs : sampleEnv m file size n = .ok env)
      (hb : Before m env n ts o) (ho : OptimizeTokensetT env ntokens p ty ts (.error e) w out) :
      IncreasingT m file ntokens p ty n size ts (.error e) w.saved
        (.sample env.sampler.totalSize :: (o ++ out.map .opt))
  | full {size ts env st w e o out} (h : size < file.length) (hs : sampleEnv m file size n = .ok env)
      (hb : Before m env n ts o) (ho : OptimizeTokensetT env ntokens p ty ts (.ok st) w out)
      (hf : Tokenized m file st.tokenSet n (.error e)) :
      IncreasingT m file ntokens p ty n size ts (.error e) w.saved
        (.sample env.sampler.totalSize :: (o ++ out.map .opt ++ [.optimized st]))
  | stop {size ts env st w st' o out} (h : size < file.length) (hs : sampleEnv m file size n = .ok env)
      (hb : Before m env n ts o) (ho : OptimizeTokensetT env ntokens p ty ts (.ok st) w out)
      (hf : Tokenized m file st.tokenSet n (.ok st'))
      (hstop : size > 1 <<< 24 ∧ closeEnough st st' = true) :
      IncreasingT m file ntokens p ty n size ts (.ok st') w.saved
        (.sample env.sampler.totalSize :: (o ++ out.map .opt ++ [.optimized st, .full st', .stopping]))
  | again {size ts env st w st' r saved o out notes} (h : size < file.length)
      (hs : sampleEnv m file size n = .ok env)
      (hb : Before m env n ts o) (ho : OptimizeTokensetT env ntokens p ty ts (.ok st) w out)
      (hf : Tokenized m file st.tokenSet n (.ok st'))
      (hstop : ¬ (size > 1 <<< 24 ∧ closeEnough st st' = true))
      (hr : IncreasingT m file ntokens p ty n (size * 2) (some st.tokenSet) r saved notes) :
      IncreasingT m file ntokens p ty n size ts r (w.saved ++ saved)
        (.sample env.sampler.totalSize :: (o ++ out.map .opt ++ [.optimized st, .full st'] ++ notes))

/-- src/main.rs:234-243, as `Main.Optimized`, with what is printed. -/
inductive OptimizedT (m : Machine) (data : Bytes) (ntokens : Nat) (p : Processing) (ty : TokenType)
    (rawSize : Nat) (input : Option TokenSet) :
    Option Nat → R TokenStats → List (Text × Text) → List Note → Prop where
  | increasing {size r saved out} (h : IncreasingT m data ntokens p ty (some rawSize) size input r saved out) :
      OptimizedT m data ntokens p ty rawSize input (some size) r saved out
  | memory {env r w out} (hsize : rawSize < 1 <<< 34) (he : memoryEnv m data (some rawSize) = .ok env)
      (h : OptimizeTokensetT env ntokens p ty input r w out) :
      OptimizedT m data ntokens p ty rawSize input none r w.saved (out.map .opt)
  | memoryFail {e} (hsize : rawSize < 1 <<< 34) (he : memoryEnv m data (some rawSize) = .error e) :
      OptimizedT m data ntokens p ty rawSize input none (.error e) [] []
  | file {sd r w out} (hsize : ¬ rawSize < 1 <<< 34)
      (he : fileSampler data (1 <<< 24) (fun _ => 1 <<< 24) = .ok sd)
      (h : OptimizeTokensetT ⟨sd, some rawSize, m.nthreads⟩ ntokens p ty input r w out) :
      OptimizedT m data ntokens p ty rawSize input none r w.saved (out.map .opt)
  | fileFail {e} (hsize : ¬ rawSize < 1 <<< 34)
      (he : fileSampler data (1 <<< 24) (fun _ => 1 <<< 24) = .error e) :
      OptimizedT m data ntokens p ty rawSize input none (.error e) [] []

/-- src/main.rs:214-216: what is printed when there is an input token set. -/
def readNotes : Option Json → List Note
  | none => []
  | some _ => [.reading]

/-- src/main.rs:199-246 `optimize`, as `Main.OptimizeCommand`, with what is printed.  `save_tokens` prints
first (line 146), then makes the text and writes it. -/
inductive OptimizeCommandT (m : Machine) (ntokens : Nat) (raw : Bytes) (processed : Option Bytes)
    (p : Processing) (ty : TokenType) (input : Option Json) (minSize : Option Nat) :
    R (List (Text × Text)) → List Note → Prop where
  | process {e} (h : maybeProcessFile m raw processed p = .error e) :
      OptimizeCommandT m ntokens raw processed p ty input minSize (.error e) (processNotes m raw processed p)
  | load {data e} (h1 : maybeProcessFile m raw processed p = .ok data) (h2 : readInput input = .error e) :
      OptimizeCommandT m ntokens raw processed p ty input minSize (.error e)
        (processNotes m raw processed p ++ readNotes input)
  | optimize {data ts e saved out} (h1 : maybeProcessFile m raw processed p = .ok data)
      (h2 : readInput input = .ok ts)
      (h3 : OptimizedT m data ntokens p ty raw.length ts minSize (.error e) saved out) :
      OptimizeCommandT m ntokens raw processed p ty input minSize (.error e)
        (processNotes m raw processed p ++ readNotes input ++ .start ntokens :: out)
  | saveFail {data ts st saved e out} (h1 : maybeProcessFile m raw processed p = .ok data)
      (h2 : readInput input = .ok ts)
      (h3 : OptimizedT m data ntokens p ty raw.length ts minSize (.ok st) saved out)
      (h4 : statsFile m st = .error e) :
      OptimizeCommandT m ntokens raw processed p ty input minSize (.error e)
        (processNotes m raw processed p ++ readNotes input ++ .start ntokens ::
          (out ++ [.writing (st.tokenSet.name ++ ".json".toList)]))
  | write {data ts st saved f out} (h1 : maybeProcessFile m raw processed p = .ok data)
      (h2 : readInput input = .ok ts)
      (h3 : OptimizedT m data ntokens p ty raw.length ts minSize (.ok st) saved out)
      (h4 : statsFile m st = .ok f) :
      OptimizeCommandT m ntokens raw processed p ty input minSize (.ok (saved ++ [f]))
        (processNotes m raw processed p ++ readNotes input ++ .start ntokens ::
          (out ++ [.writing (st.tokenSet.name ++ ".json".toList)]))

/-- src/main.rs:115-142 `load_save_tokens`, as `Main.ConvertCommand`, with what is printed. -/
inductive ConvertCommandT (m : Machine) (raw : Bytes) (processed : Option Bytes) (input : Json) :
    R (Text × Text) → List Note → Prop where
  | load {e} (h : TokenSet.fromJson input = .error e) : ConvertCommandT m raw processed input (.error e) []
  | process {ts e} (h1 : TokenSet.fromJson input = .ok ts)
      (h2 : maybeProcessFile m raw processed ts.processing = .error e) :
      ConvertCommandT m raw processed input (.error e) (processNotes m raw processed ts.processing)
  | tokenize {ts data e} (h1 : TokenSet.fromJson input = .ok ts)
      (h2 : maybeProcessFile m raw processed ts.processing = .ok data)
      (h3 : Tokenized m data ts (some raw.length) (.error e)) :
      ConvertCommandT m raw processed input (.error e)
        (processNotes m raw processed ts.processing ++ [.opening, .tokenizing ts.name])
  | write {ts data st} (h1 : TokenSet.fromJson input = .ok ts)
      (h2 : maybeProcessFile m raw processed ts.processing = .ok data)
      (h3 : Tokenized m data ts (some raw.length) (.ok st)) :
      ConvertCommandT m raw processed input (statsFile m st)
        (processNotes m raw processed ts.processing ++
          [.opening, .tokenizing ts.name, .writing (ts.name ++ ".json".toList)])

end Main
end Tokens
