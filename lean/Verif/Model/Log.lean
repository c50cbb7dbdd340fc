import Verif.Model.Main
import Verif.Model.Show

/-!
The optimizer with its console output: the functions of `/repo/src/optimize.rs:178-331` as in
`Verif/Model/Optimize.lean`, with the `print!`s and `println!`s at the places where the code has them.
That printing changes nothing else is a theorem (`talk_run`, `run_talk` in `Verif/Proofs/Log.lean`).
Not modelled: the three `dbg!`s of `add_token_bpe` (lines 83-85), which go to standard error; failing
writes to the console.
-/

namespace Tokens
namespace Optimize
open OptimizeBytes Batch

/-- What is printed by one call of `print!` or `println!`. -/
inductive Printed where
  /-- src/optimize.rs:302-306 -/
  | initial (n : Nat) (st : TokenStats)
  /-- src/optimize.rs:188, 207, 238, 261: `show_tokenset_diff` of these two sets -/
  | change (before after : TokenSet)
  /-- src/optimize.rs:189, 208, 239, 262: `bytes_per_token` of these statistics -/
  | rate (st : TokenStats)
  /-- src/optimize.rs:224 -/
  | removing
  /-- src/optimize.rs:228 -/
  | tried (s : Bytes)
  /-- src/optimize.rs:237, 244 -/
  | newline
  /-- src/optimize.rs:289 -/
  | writing (ts : TokenSet)

/-- How numbers and paths are written: `char` tables of `Debug for str`, `Display for f64`, and the path
that `tokens_dir.join(name)` displays as. -/
structure Style where
  plain : Char → Bool
  float : F64 → Text
  path : Text → Text

/-- The characters that one call prints. -/
inductive Printed.Shows (sty : Style) : Printed → Text → Prop where
  | initial {n st} : Shows sty (.initial n st)
      ("Initial tokens: ".toList ++ Nat.toDigits 10 n ++ ", bytes/token = ".toList ++
        sty.float (Main.bytesPerToken st) ++ ['\n'])
  | change {a b line} (h : Show.ShowDiff sty.plain a b line) : Shows sty (.change a b) (line ++ ['\n'])
  | rate {st} : Shows sty (.rate st)
      ("processed bytes / token: ".toList ++ sty.float (Main.bytesPerToken st) ++ ['\n'])
  | removing : Shows sty .removing "Removing:".toList
  | tried {s} : Shows sty (.tried s) (' ' :: Show.showBytes sty.plain s)
  | newline : Shows sty .newline ['\n']
  | writing {ts} : Shows sty (.writing ts)
      ("Writing the token set to ".toList ++ sty.path (ts.name ++ ".json".toList) ++ ['.', '\n'])

/-- The characters that several calls print, in turn. -/
inductive Console (sty : Style) : List Printed → Text → Prop where
  | nil : Console sty [] []
  | cons {e t l u} (h : e.Shows sty t) (hl : Console sty l u) : Console sty (e :: l) (t ++ u)

/-! ### Programs that print -/

/-- A program that calls others and prints. -/
inductive Talk (α : Type) : Type 1 where
  | pure (a : α)
  | say (e : Printed) (k : Talk α)
  | call {β : Type} (p : Prog β) (k : β → Talk α)

/-- Sequential composition. -/
def Talk.bind {α β : Type} : Talk α → (α → Talk β) → Talk β
  | .pure a, f => f a
  | .say e k, f => .say e (k.bind f)
  | .call p k, f => .call p (fun b => (k b).bind f)

instance : Monad Talk where
  pure := Talk.pure
  bind := Talk.bind

/-- A program that prints nothing. -/
def silent {α : Type} (p : Prog α) : Talk α := .call p .pure

/-- `print!`, `println!`. -/
def say (e : Printed) : Talk Unit := .say e (.pure ())

/-- The program without its output. -/
def Talk.quiet {α : Type} : Talk α → Prog α
  | .pure a => .pure a
  | .say _ k => k.quiet
  | .call p k => p.bind (fun b => (k b).quiet)

/-- `RunT env t w r w' out`: program `t`, started in `w`, may end in `w'` with result `r` and may have
printed `out`. -/
inductive RunT (env : Env) {α : Type} : Talk α → World → R α → World → List Printed → Prop where
  | pure {a w} : RunT env (.pure a) w (.ok a) w []
  | say {e k w r w' out} (h : RunT env k w r w' out) : RunT env (.say e k) w r w' (e :: out)
  | call {β : Type} {p : Prog β} {k : β → Talk α} {w b w1 r w' out} (h : Run env p w (.ok b) w1)
      (hk : RunT env (k b) w1 r w' out) : RunT env (.call p k) w r w' out
  | callFail {β : Type} {p : Prog β} {k : β → Talk α} {w e w'} (h : Run env p w (.error e) w') :
      RunT env (.call p k) w (.error e) w' []

/-! ### The functions of src/optimize.rs that print -/

/-- src/optimize.rs:225-244: the loop over the tokens to remove and the end of its line; `total` is
`stats.total_tokens`. -/
def removeLoopT (bo : BytesOptimizer) (ts : TokenSet) (ntokens total : Nat) :
    List Bytes → Removals → Talk (Option TokenStats × Removals)
  | [], rc => do
    say .newline
    return (none, rc)
  | s :: rest, rc => do
    say (.tried s)
    let idx ← silent (Prog.lift (unwrapR (ts.findToken s)))
    let ts1 ← silent (Prog.lift (ts.removeToken idx))
    let m ← silent (Prog.lift (subR ntokens 1))
    silent (Prog.lift (rassert (ts1.ntokens == m)))
    match ← silent (addToken bo ts1) with
    | some ts2 => do
      let st2 ← silent (getStats ts2)
      if st2.totalTokens < total then do
        say .newline
        say (.change ts ts2)
        say (.rate st2)
        return (some st2, rc.bump s)
      else removeLoopT bo ts ntokens total rest (rc.bump s)
    | none => removeLoopT bo ts ntokens total rest (rc.bump s)

/-- src/optimize.rs:199-212. -/
def tradeByteT (bo : BytesOptimizer) (ts : TokenSet) (ntokens : Nat) (st : TokenStats) :
    Talk (Option TokenStats) := do
  let n ← silent (Prog.lift (subR ts.ntokens ts.nLongTokens))
  if n > ts.minBytesExtTokens then do
    let n' ← silent (Prog.lift (subR n 1))
    let ts1 ← silent (Prog.lift (bo st n'))
    let m ← silent (Prog.lift (subR ntokens 1))
    silent (Prog.lift (rassert (ts1.ntokens == m)))
    let st1 ← silent (getStatsWithPairs ts1)
    match ← silent (Prog.lift (addTokenBpe st1)) with
    | some (ts2, _) => do
      let st2 ← silent (getStats ts2)
      if st2.totalTokens < st.totalTokens then do
        say (.change ts ts2)
        say (.rate st2)
        return some st2
      else return none
    | none => return none
  else return none

/-- src/optimize.rs:178-247 `remove_add_token`. -/
def removeAddTokenT (bo : BytesOptimizer) (ts : TokenSet) (ntokens : Nat) (rc : Removals) :
    Talk (Option TokenStats × Removals) := do
  if ts.ntokens < ntokens then
    match ← silent (addToken bo ts) with
    | some ts' => do
      let st ← silent (getStats ts')
      say (.change ts ts')
      say (.rate st)
      return (some st, rc)
    | none => return (none, rc)
  else do
    silent (Prog.lift (rassert (ts.ntokens == ntokens)))
    let st ← silent (getStats ts)
    match ← tradeByteT bo ts ntokens st with
    | some st' => return (some st', rc)
    | none => do
      let order ← silent (sortUnstableBy rc (longStrings ts.tokens))
      say .removing
      removeLoopT bo ts ntokens st.totalTokens order rc

/-- src/optimize.rs:249-285 `optimization_step`. -/
def optimizationStepT (bo : BytesOptimizer) (ts : TokenSet) (ntokens : Nat) (rc : Removals) :
    Talk (Option TokenSet × Removals) := do
  let st ← silent (getStats ts)
  let n ← silent (Prog.lift (subR ntokens ts.nLongTokens))
  let ts' ← silent (Prog.lift (bo st n))
  let st' ← silent (getStats ts')
  if st'.totalTokens < st.totalTokens then do
    say (.change ts ts')
    say (.rate st')
    return (some st'.tokenSet, rc)
  else do
    match ← removeAddTokenT bo ts ntokens rc with
    | (some st2, rc') => do
      silent (Prog.lift (rassert (decide (st2.tokenSet.ntokens ≤ ntokens))))
      return (some st2.tokenSet, rc')
    | (none, rc') => return (none, rc')

/-- src/optimize.rs:319-322, 287-292: save if the clock says so; `save_tokens` prints first. -/
def maybeSaveT (ts : TokenSet) : Talk Unit := do
  if ← silent askClock then do
    say (.writing ts)
    silent (saveTokens ts)
  else return ()

/-- src/optimize.rs:311-327: the loop of `optimize_tokenset_impl`. -/
inductive LoopT (env : Env) (bo : BytesOptimizer) (ntokens : Nat) :
    TokenSet → Removals → World → R TokenSet → World → List Printed → Prop where
  | stop {ts rc rc' w w' o}
      (hs : RunT env (optimizationStepT bo ts ntokens rc) w (.ok (none, rc')) w' o) :
      LoopT env bo ntokens ts rc w (.ok ts) w' o
  | fail {ts rc w e w' o} (hs : RunT env (optimizationStepT bo ts ntokens rc) w (.error e) w' o) :
      LoopT env bo ntokens ts rc w (.error e) w' o
  | again {ts rc w ts' rc' w1 w2 r w' o1 o2 o3}
      (hs : RunT env (optimizationStepT bo ts ntokens rc) w (.ok (some ts', rc')) w1 o1)
      (hsave : RunT env (maybeSaveT ts') w1 (.ok ()) w2 o2)
      (hl : LoopT env bo ntokens ts' rc' w2 r w' o3) :
      LoopT env bo ntokens ts rc w r w' (o1 ++ o2 ++ o3)
  | saveFail {ts rc w ts' rc' w1 e w2 o1 o2}
      (hs : RunT env (optimizationStepT bo ts ntokens rc) w (.ok (some ts', rc')) w1 o1)
      (hsave : RunT env (maybeSaveT ts') w1 (.error e) w2 o2) :
      LoopT env bo ntokens ts rc w (.error e) w2 (o1 ++ o2)

/-- src/optimize.rs:294-331 `optimize_tokenset_impl`. -/
inductive ImplT (env : Env) (bo : BytesOptimizer) (ntokens : Nat) :
    TokenSet → World → R TokenStats → World → List Printed → Prop where
  | done {ts w st w1 ts' w2 r w' o} (h1 : Run env (getStats ts) w (.ok st) w1)
      (h2 : LoopT env bo ntokens ts (fun _ => 0) w1 (.ok ts') w2 o)
      (h3 : Run env (finish ts') w2 r w') :
      ImplT env bo ntokens ts w r w' (.initial ts.ntokens st :: o)
  | firstFail {ts w e w'} (h1 : Run env (getStats ts) w (.error e) w') :
      ImplT env bo ntokens ts w (.error e) w' []
  | loopFail {ts w st w1 e w' o} (h1 : Run env (getStats ts) w (.ok st) w1)
      (h2 : LoopT env bo ntokens ts (fun _ => 0) w1 (.error e) w' o) :
      ImplT env bo ntokens ts w (.error e) w' (.initial ts.ntokens st :: o)

/-- src/optimize.rs:333-389 `optimize_tokenset`. -/
inductive OptimizeTokensetT (env : Env) (ntokens : Nat) (p : Processing) (ty : TokenType)
    (pretrained : Option TokenSet) : R TokenStats → World → List Printed → Prop where
  | run {ts w r w' o}
      (h1 : Run env (startSet ntokens p ty pretrained) ⟨fun _ => none, []⟩ (.ok ts) w)
      (h2 : ImplT env (optimizerFor ty) ntokens ts w r w' o) :
      OptimizeTokensetT env ntokens p ty pretrained r w' o
  | startFail {e w}
      (h1 : Run env (startSet ntokens p ty pretrained) ⟨fun _ => none, []⟩ (.error e) w) :
      OptimizeTokensetT env ntokens p ty pretrained (.error e) w []

end Optimize
end Tokens
