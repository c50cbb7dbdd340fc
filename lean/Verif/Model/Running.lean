import Verif.Model.Disk

/-!
Executions that have not ended: what a command has done so far, at any moment.  They are needed because
an execution may go on for ever (`optimize --min-data-size 0`), so that it has no end.

The steps are those of `Run`, `Loop`, `Impl`, `OptimizeTokenset` (`Verif/Model/Optimize.lean`),
`Increasing`, `Optimized` (`Verif/Model/Main.lean`) and `Exec` (`Verif/Model/Disk.lean`).
-/

namespace Tokens
open Optimize Main Input Batch

namespace Optimize
open OptimizeBytes

/-- `Part env p w w'`: program `p`, started in `w`, may have come to `w'`.  The cases are those of `Run`. -/
inductive Part (env : Env) {α : Type} : Prog α → World → World → Prop where
  | here {p w} : Part env p w w
  | stats {ts k w c st w'}
      (hg : GetStats env.sampler env.initialSize env.nthreads w.cache ts c st)
      (hk : Part env (k st) ⟨c, w.saved⟩ w') : Part env (.stats ts k) w w'
  | pairs {ts k w c st w'}
      (hg : GetStatsWithPairs env.sampler env.initialSize env.nthreads w.cache ts c st)
      (hk : Part env (k st) ⟨c, w.saved⟩ w') : Part env (.pairs ts k) w w'
  | sortUnstable {key l k l' w w'} (hp : l'.Perm l)
      (hs : l'.Pairwise (fun a b => key a ≤ key b))
      (hk : Part env (k l') w w') : Part env (.sortUnstable key l k) w w'
  | clock {k w w'} (b : Bool) (hk : Part env (k b) w w') : Part env (.clock k) w w'
  | save {ts k w f w'} (hf : savedFile ts = .ok f)
      (hk : Part env k ⟨w.cache, w.saved ++ [f]⟩ w') : Part env (.save ts k) w w'

/-- src/optimize.rs:311-327: the loop of `optimize_tokenset_impl` so far. -/
inductive PartLoop (env : Env) (bo : BytesOptimizer) (ntokens : Nat) :
    TokenSet → Removals → World → World → Prop where
  | step {ts rc w w'} (hs : Part env (optimizationStep bo ts ntokens rc) w w') :
      PartLoop env bo ntokens ts rc w w'
  | save {ts rc w ts' rc' w1 w'}
      (hs : Run env (optimizationStep bo ts ntokens rc) w (.ok (some ts', rc')) w1)
      (hsave : Part env (maybeSave ts') w1 w') : PartLoop env bo ntokens ts rc w w'
  | again {ts rc w ts' rc' w1 w2 w'}
      (hs : Run env (optimizationStep bo ts ntokens rc) w (.ok (some ts', rc')) w1)
      (hsave : Run env (maybeSave ts') w1 (.ok ()) w2)
      (hl : PartLoop env bo ntokens ts' rc' w2 w') : PartLoop env bo ntokens ts rc w w'

/-- src/optimize.rs:294-331 `optimize_tokenset_impl` so far. -/
inductive PartImpl (env : Env) (bo : BytesOptimizer) (ntokens : Nat) : TokenSet → World → World → Prop where
  | first {ts w w'} (h1 : Part env (getStats ts) w w') : PartImpl env bo ntokens ts w w'
  | loop {ts w st w1 w'} (h1 : Run env (getStats ts) w (.ok st) w1)
      (h2 : PartLoop env bo ntokens ts (fun _ => 0) w1 w') : PartImpl env bo ntokens ts w w'
  | finish {ts w st w1 ts' w2 w'} (h1 : Run env (getStats ts) w (.ok st) w1)
      (h2 : Loop env bo ntokens ts (fun _ => 0) w1 (.ok ts') w2)
      (h3 : Part env (finish ts') w2 w') : PartImpl env bo ntokens ts w w'

/-- src/optimize.rs:333-389 `optimize_tokenset` so far. -/
inductive PartTokenset (env : Env) (ntokens : Nat) (p : Processing) (ty : TokenType)
    (pretrained : Option TokenSet) : World → Prop where
  | start {w} (h1 : Part env (startSet ntokens p ty pretrained) ⟨fun _ => none, []⟩ w) :
      PartTokenset env ntokens p ty pretrained w
  | impl {ts w w'} (h1 : Run env (startSet ntokens p ty pretrained) ⟨fun _ => none, []⟩ (.ok ts) w)
      (h2 : PartImpl env (optimizerFor ty) ntokens ts w w') :
      PartTokenset env ntokens p ty pretrained w'

end Optimize

namespace Main

/-- src/main.rs:151-197 `optimize_with_increasing_data` so far, from the head of the loop: the files
written. -/
inductive PartIncreasing (m : Machine) (file : Bytes) (ntokens : Nat) (p : Processing) (ty : TokenType)
    (n : Option Nat) : Nat → Option TokenSet → List (Text × Text) → Prop where
  | head {size ts} : PartIncreasing m file ntokens p ty n size ts []
  | optimize {size ts env w} (h : size < file.length) (hs : sampleEnv m file size n = .ok env)
      (hb : ∀ t, ts = some t → ∃ st, TokenizeFile t env.sampler n m.nthreads st)
      (ho : PartTokenset env ntokens p ty ts w) :
      PartIncreasing m file ntokens p ty n size ts w.saved
  | after {size ts env st w} (h : size < file.length) (hs : sampleEnv m file size n = .ok env)
      (hb : ∀ t, ts = some t → ∃ st, TokenizeFile t env.sampler n m.nthreads st)
      (ho : OptimizeTokenset env ntokens p ty ts (.ok st) w) :
      PartIncreasing m file ntokens p ty n size ts w.saved
  | again {size ts env st w st' saved} (h : size < file.length)
      (hs : sampleEnv m file size n = .ok env)
      (hb : ∀ t, ts = some t → ∃ st, TokenizeFile t env.sampler n m.nthreads st)
      (ho : OptimizeTokenset env ntokens p ty ts (.ok st) w)
      (hf : Tokenized m file st.tokenSet n (.ok st'))
      (hstop : ¬ (size > 1 <<< 24 ∧ closeEnough st st' = true))
      (hr : PartIncreasing m file ntokens p ty n (size * 2) (some st.tokenSet) saved) :
      PartIncreasing m file ntokens p ty n size ts (w.saved ++ saved)

/-- src/main.rs:163-194: that many rounds of the loop of `optimize_with_increasing_data`, none of them the
last; the loop variables before and after, and the files written. -/
inductive Rounds (m : Machine) (file : Bytes) (ntokens : Nat) (p : Processing) (ty : TokenType)
    (n : Option Nat) : Nat → Nat → Option TokenSet → Nat → Option TokenSet → List (Text × Text) → Prop where
  | none {size ts} : Rounds m file ntokens p ty n 0 size ts size ts []
  | round {k size ts env st w st' size' ts' saved} (h : size < file.length)
      (hs : sampleEnv m file size n = .ok env)
      (hb : ∀ t, ts = some t → ∃ st, TokenizeFile t env.sampler n m.nthreads st)
      (ho : OptimizeTokenset env ntokens p ty ts (.ok st) w)
      (hf : Tokenized m file st.tokenSet n (.ok st'))
      (hstop : ¬ (size > 1 <<< 24 ∧ closeEnough st st' = true))
      (hr : Rounds m file ntokens p ty n k (size * 2) (some st.tokenSet) size' ts' saved) :
      Rounds m file ntokens p ty n (k + 1) size ts size' ts' (w.saved ++ saved)

/-- src/main.rs:234-243 so far: the files written by the optimizer. -/
inductive PartOptimized (m : Machine) (data : Bytes) (ntokens : Nat) (p : Processing) (ty : TokenType)
    (rawSize : Nat) (input : Option TokenSet) : Option Nat → List (Text × Text) → Prop where
  | increasing {size saved} (h : PartIncreasing m data ntokens p ty (some rawSize) size input saved) :
      PartOptimized m data ntokens p ty rawSize input (some size) saved
  | memory {env w} (hsize : rawSize < 1 <<< 34) (he : memoryEnv m data (some rawSize) = .ok env)
      (h : PartTokenset env ntokens p ty input w) :
      PartOptimized m data ntokens p ty rawSize input none w.saved
  | file {sd w} (hsize : ¬ rawSize < 1 <<< 34)
      (he : fileSampler data (1 <<< 24) (fun _ => 1 <<< 24) = .ok sd)
      (h : PartTokenset ⟨sd, some rawSize, m.nthreads⟩ ntokens p ty input w) :
      PartOptimized m data ntokens p ty rawSize input none w.saved

end Main

namespace Disk

/-- src/main.rs:313-348 `main` so far: the command may have written these files, in this order (the last
one perhaps not to its end, see `Stopped`). -/
inductive Running (m : Machine) (d : Files) : Command → List (Text × Bytes) → Prop where
  /-- nothing has been written yet -/
  | nothing {cmd} : Running m d cmd []
  /-- the optimizer is at work -/
  | optimize {data processed tokensDir p ty ntokens inputTokens minSize raw file v bytes ts saved}
      (hr : openFile d data = .ok raw) (hp : openProcessed d processed p = .ok file)
      (hi : openInput d inputTokens = .ok v) (hd : maybeProcessFile m raw file p = .ok bytes)
      (ht : readInput v = .ok ts) (ho : PartOptimized m bytes ntokens p ty raw.length ts minSize saved) :
      Running m d (.optimize data processed tokensDir p ty ntokens inputTokens minSize)
        (attempt d (inDir tokensDir saved) (.ok ())).2
  /-- the command has ended, or would end without writing more -/
  | ended {cmd r ws} (h : Exec m d cmd (r, ws)) : Running m d cmd ws

end Disk
end Tokens
