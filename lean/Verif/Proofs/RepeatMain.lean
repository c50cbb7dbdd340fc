import Verif.Model.RepeatMain
import Verif.Props.Repeat
import Verif.Props.Disk

/-!
The commands in surroundings that behave the same way every time (`Verif/Model/RepeatMain.lean`): they are
among the runs of the commands, and two of them have the same result.
-/

namespace Tokens
open Spec TokenSet Optimize Batch Main Input Disk Props

set_option linter.unusedVariables false

variable {f : SortFn} {m m1 m2 : Machine}

/-! ### They are runs -/

theorem TokenizedFull.tokenized {file : Bytes} {ts : TokenSet} {n : Option Nat} {r : R TokenStats}
    (h : TokenizedFull m file ts n r) : Tokenized m file ts n r := by
  cases h with
  | ok hs ht => exact .ok hs ht
  | sampler hs => exact .sampler hs
  | tokenizer hs ht => exact .tokenizer hs ht

theorem ConvertFull.convert {raw : Bytes} {processed : Option Bytes} {v : Json} {r : R (Text × Text)}
    (h : ConvertFull m raw processed v r) : ConvertCommand m raw processed v r := by
  cases h with
  | load h => exact .load h
  | process h1 h2 => exact .process h1 h2
  | tokenize h1 h2 h3 => exact .tokenize h1 h2 (TokenizedFull.tokenized h3)
  | write h1 h2 h3 => exact .write h1 h2 (TokenizedFull.tokenized h3)

theorem IncreasingBy.increasing (hf : f.Sorts) {file : Bytes} {ntokens : Nat} {p : Processing} {ty : TokenType}
    {n : Option Nat} {size : Nat} {ts : Option TokenSet} {r : R TokenStats} {saved : List (Text × Text)}
    (h : IncreasingBy f m file ntokens p ty n size ts r saved) :
    Increasing m file ntokens p ty n size ts r saved := by
  induction h with
  | exhausted h => exact .exhausted h
  | sample h hs => exact .sample h hs
  | before h hs hf => exact .before h hs hf
  | optimize h hs hb ho => exact .optimize h hs hb (ho.optimize hf)
  | full h hs hb ho ht => exact .full h hs hb (ho.optimize hf) (TokenizedFull.tokenized ht)
  | stop h hs hb ho ht hstop => exact .stop h hs hb (ho.optimize hf) (TokenizedFull.tokenized ht) hstop
  | again h hs hb ho ht hstop hr ih => exact .again h hs hb (ho.optimize hf) (TokenizedFull.tokenized ht) hstop ih

theorem OptimizedBy.optimized (hf : f.Sorts) {data : Bytes} {ntokens : Nat} {p : Processing} {ty : TokenType}
    {rawSize : Nat} {input : Option TokenSet} {minSize : Option Nat} {r : R TokenStats}
    {saved : List (Text × Text)} (h : OptimizedBy f m data ntokens p ty rawSize input minSize r saved) :
    Optimized m data ntokens p ty rawSize input minSize r saved := by
  cases h with
  | increasing h => exact .increasing (IncreasingBy.increasing hf h)
  | memory hz he h => exact .memory hz he (h.optimize hf)
  | memoryFail hz he => exact .memoryFail hz he
  | file hz he h => exact .file hz he (h.optimize hf)
  | fileFail hz he => exact .fileFail hz he

theorem ExecBy.exec (hf : f.Sorts) {d : Files} {cmd : Command} {o : R Unit × List (Text × Bytes)}
    (h : ExecBy f m d cmd o) : Exec m d cmd o := by
  cases h with
  | convertOpen h => exact .convertOpen h
  | convertFail hv hr hp h => exact .convertFail hv hr hp (ConvertFull.convert h)
  | convert hv hr hp h => exact .convert hv hr hp (ConvertFull.convert h)
  | optimizeOpen h => exact .optimizeOpen h
  | optimizePrepare hr hp hi h => exact .optimizePrepare hr hp hi h
  | optimizeFail hr hp hi hd ht ho h => exact .optimizeFail hr hp hi hd ht (OptimizedBy.optimized hf ho) h
  | optimize hr hp hi hd ht ho h => exact .optimize hr hp hi hd ht (OptimizedBy.optimized hf ho) h

/-! ### Two of them have the same result -/

theorem tokenizedFull_one (hm1 : MachineOk m1) (hm2 : MachineOk m2) {file : Bytes} {ts : TokenSet}
    (hr : SeqsInRange ts) {n : Option Nat} {r1 r2 : R TokenStats} (h1 : TokenizedFull m1 file ts n r1)
    (h2 : TokenizedFull m2 file ts n r2) : r1 = r2 := by
  have key : ∀ {ma mb : Machine} {sd : SamplerData} {st : TokenStats}, MachineOk ma → MachineOk mb →
      fileSampler file (1 <<< 24) (fun _ => 1 <<< 24) = .ok sd → TokenizeFile ts sd n ma.nthreads st →
      TokenizeFails ts ⟨sd, n, mb.nthreads⟩ → False := by
    intro ma mb sd st ha hb hs ht hf
    obtain ⟨_, _, _, g, _⟩ := sync_inv hr (C07_tokenize_file _ hr _ n _ ha.threads _ ht)
    exact Optimize.tokenize_fails_not ⟨hb.threads, .inr (fileSampler_facts hs).2.1⟩ g hr hf
  cases h1 with
  | ok hs ht =>
    cases h2 with
    | ok hs' ht' =>
      have := Except.ok.inj (hs.symm.trans hs')
      subst this
      exact (C07_tokenize_file _ hr _ n _ hm1.threads _ ht).symm.trans
        (C07_tokenize_file _ hr _ n _ hm2.threads _ ht')
    | sampler hs' => rw [hs] at hs'; cases hs'
    | tokenizer hs' ht' =>
      have := Except.ok.inj (hs.symm.trans hs')
      subst this
      exact (key hm1 hm2 hs ht ht').elim
  | sampler hs =>
    cases h2 with
    | ok hs' ht' => rw [hs] at hs'; cases hs'
    | sampler hs' => rw [hs] at hs'; rw [Except.error.inj hs']
    | tokenizer hs' ht' => rw [hs] at hs'; cases hs'
  | tokenizer hs ht =>
    cases h2 with
    | ok hs' ht' =>
      have := Except.ok.inj (hs.symm.trans hs')
      subst this
      exact (key hm2 hm1 hs ht' ht).elim
    | sampler hs' => rw [hs] at hs'; cases hs'
    | tokenizer hs' ht' => rfl

theorem optimizeBy_one (hf : f.Sorts) {env1 env2 : Env} (he1 : EnvOk env1) (he2 : EnvOk env2)
    (hs : env1.sampler = env2.sampler) (hi : env1.initialSize = env2.initialSize) {ty : TokenType}
    {p : Processing} {ntokens : Nat} {input : Option TokenSet} (hg : GoodInput ty p ntokens input)
    {r1 r2 : R TokenStats} {w1 w2 : World} (h1 : OptimizeBy f env1 ntokens p ty input r1 w1)
    (h2 : OptimizeBy f env2 ntokens p ty input r2 w2) : r1 = r2 := by
  cases input with
  | none => exact C66_reproducible f hf env1 env2 he1 he2 (by rw [hs]) hi ty p ntokens hg r1 r2 w1 w2 h1 h2
  | some ts =>
    exact C66_reproducible_pretrained f hf env1 env2 he1 he2 (by rw [hs]) hi ty p ntokens ts hg r1 r2 w1 w2 h1 h2

/-- Where an environment for a part of the data comes from. -/
theorem memoryEnv_inv {data : Bytes} {n : Option Nat} {env : Env} (h : memoryEnv m data n = .ok env) :
    memorySampler ⟨data, 1 <<< 20⟩ = .ok env.sampler ∧ env.initialSize = n ∧ env.nthreads = m.nthreads := by
  unfold memoryEnv at h
  cases hs : memorySampler ⟨data, 1 <<< 20⟩ with
  | error e => rw [hs, R.error_bind] at h; cases h
  | ok sd =>
    rw [hs, R.ok_bind] at h
    have := Except.ok.inj h
    subst this
    exact ⟨rfl, rfl, rfl⟩

theorem memoryEnv_same {data : Bytes} {n : Option Nat} {env1 env2 : Env} (h1 : memoryEnv m1 data n = .ok env1)
    (h2 : memoryEnv m2 data n = .ok env2) :
    env1.sampler = env2.sampler ∧ env1.initialSize = env2.initialSize := by
  obtain ⟨a1, b1, _⟩ := memoryEnv_inv h1
  obtain ⟨a2, b2, _⟩ := memoryEnv_inv h2
  exact ⟨Except.ok.inj (a1.symm.trans a2), b1.trans b2.symm⟩

theorem sampleEnv_same {file : Bytes} {size : Nat} {n : Option Nat} {env1 env2 : Env}
    (h1 : sampleEnv m1 file size n = .ok env1) (h2 : sampleEnv m2 file size n = .ok env2) :
    env1.sampler = env2.sampler ∧ env1.initialSize = env2.initialSize := by
  unfold sampleEnv at h1 h2
  cases hs : sampleFromFile file size (1 <<< 20) with
  | error e => rw [hs, R.error_bind] at h1; cases h1
  | ok s =>
    rw [hs, R.ok_bind] at h1 h2
    exact memoryEnv_same h1 h2

theorem sampleEnv_good (hm : MachineOk m) {file : Bytes} {size : Nat} {n : Option Nat} {env : Env}
    (hs : sampleEnv m file size n = .ok env) : EnvOk env := by
  obtain ⟨env', h1, h2, _⟩ := sampleEnv_ok hm file size n
  have := Except.ok.inj (h1.symm.trans hs)
  subst this
  exact h2

/-- One round from a good set: an optimization that succeeds, then the full data, then the end or the next
round. -/
theorem IncreasingBy.inv (hf : f.Sorts) (hm : MachineOk m) {file : Bytes} {ntokens : Nat} {p : Processing}
    {ty : TokenType} {n : Option Nat} {size : Nat} {ts : Option TokenSet} (hi : GoodInput ty p ntokens ts)
    {r : R TokenStats} {saved : List (Text × Text)}
    (h : IncreasingBy f m file ntokens p ty n size ts r saved) :
    (¬ size < file.length ∧ r = .error .unwrapNone) ∨
    (size < file.length ∧ ∃ env st w rt, sampleEnv m file size n = .ok env ∧ EnvOk env ∧
      OptimizeBy f env ntokens p ty ts (.ok st) w ∧ Workable ty p ntokens st.tokenSet ∧
      TokenizedFull m file st.tokenSet n rt ∧
      ((∃ e, rt = .error e ∧ r = .error e) ∨
       (∃ st', rt = .ok st' ∧ (size > 1 <<< 24 ∧ closeEnough st st' = true) ∧ r = .ok st') ∨
       (∃ st' saved', rt = .ok st' ∧ ¬ (size > 1 <<< 24 ∧ closeEnough st st' = true) ∧
          IncreasingBy f m file ntokens p ty n (size * 2) (some st.tokenSet) r saved'))) := by
  have good : ∀ {env st w}, sampleEnv m file size n = .ok env → OptimizeBy f env ntokens p ty ts (.ok st) w →
      EnvOk env ∧ Workable ty p ntokens st.tokenSet := by
    intro env st w hs ho
    have he := sampleEnv_good hm hs
    obtain ⟨st', e, _, hw⟩ := optimize_good he hi (ho.optimize hf)
    have := Except.ok.inj e
    subst this
    exact ⟨he, hw⟩
  cases h with
  | exhausted h => exact .inl ⟨h, rfl⟩
  | sample h hs =>
    obtain ⟨env, h1, _⟩ := sampleEnv_ok hm file size n
    rw [h1] at hs; cases hs
  | before h hs hfl =>
    have hu := Tokens.Family.usable hi.family
    exact absurd hfl (Optimize.tokenize_fails_not (sampleEnv_good hm hs) hu.accepted hu.inRange)
  | optimize h hs hb ho =>
    obtain ⟨st, e, _⟩ := optimize_good (sampleEnv_good hm hs) hi (ho.optimize hf)
    cases e
  | full h hs hb ho ht =>
    obtain ⟨g1, g2⟩ := good hs ho
    exact .inr ⟨h, _, _, _, _, hs, g1, ho, g2, ht, .inl ⟨_, rfl, rfl⟩⟩
  | stop h hs hb ho ht hstop =>
    obtain ⟨g1, g2⟩ := good hs ho
    exact .inr ⟨h, _, _, _, _, hs, g1, ho, g2, ht, .inr (.inl ⟨_, rfl, hstop, rfl⟩)⟩
  | again h hs hb ho ht hstop hr =>
    obtain ⟨g1, g2⟩ := good hs ho
    exact .inr ⟨h, _, _, _, _, hs, g1, ho, g2, ht, .inr (.inr ⟨_, _, rfl, hstop, hr⟩)⟩

theorem increasingBy_one (hf : f.Sorts) (hm1 : MachineOk m1) (hm2 : MachineOk m2) {file : Bytes} {ntokens : Nat}
    {p : Processing} {ty : TokenType} {n : Option Nat} {size : Nat} {ts : Option TokenSet} {r1 : R TokenStats}
    {saved1 : List (Text × Text)} (h1 : IncreasingBy f m1 file ntokens p ty n size ts r1 saved1) :
    ∀ {r2 : R TokenStats} {saved2 : List (Text × Text)}, GoodInput ty p ntokens ts →
      IncreasingBy f m2 file ntokens p ty n size ts r2 saved2 → r1 = r2 := by
  -- what the other run did in this round, if this one came to statistics on the full data
  have round : ∀ {size : Nat} {ts : Option TokenSet} {env : Env} {st : TokenStats} {w : World}
      {rt : R TokenStats} {r2 : R TokenStats} {saved2 : List (Text × Text)}, GoodInput ty p ntokens ts →
      size < file.length → sampleEnv m1 file size n = .ok env → OptimizeBy f env ntokens p ty ts (.ok st) w →
      TokenizedFull m1 file st.tokenSet n rt →
      IncreasingBy f m2 file ntokens p ty n size ts r2 saved2 →
      Workable ty p ntokens st.tokenSet ∧
      ((∃ e, rt = .error e ∧ r2 = .error e) ∨
       (∃ st', rt = .ok st' ∧ (size > 1 <<< 24 ∧ closeEnough st st' = true) ∧ r2 = .ok st') ∨
       (∃ st' saved', rt = .ok st' ∧ ¬ (size > 1 <<< 24 ∧ closeEnough st st' = true) ∧
          IncreasingBy f m2 file ntokens p ty n (size * 2) (some st.tokenSet) r2 saved')) := by
    intro size ts env st w rt r2 saved2 hi h hs ho ht h2
    rcases IncreasingBy.inv hf hm2 hi h2 with ⟨g, _⟩ | ⟨_, env2, st2, w2, rt2, k1, k2, k3, k4, k5, k6⟩
    · exact absurd h g
    · obtain ⟨a, b⟩ := sampleEnv_same hs k1
      have := Except.ok.inj (optimizeBy_one hf (sampleEnv_good hm1 hs) k2 a b hi ho k3)
      subst this
      have hu := Tokens.Family.usable k4.family
      have := tokenizedFull_one hm1 hm2 hu.inRange ht k5
      subst this
      exact ⟨k4, k6⟩
  induction h1 with
  | exhausted h =>
    intro r2 saved2 hi h2
    rcases IncreasingBy.inv hf hm2 hi h2 with ⟨_, e⟩ | ⟨g, _⟩
    · exact e.symm
    · exact absurd g h
  | sample h hs =>
    intro r2 saved2 hi h2
    obtain ⟨env, h1, _⟩ := sampleEnv_ok hm1 file _ n
    rw [h1] at hs; cases hs
  | before h hs hfl =>
    intro r2 saved2 hi h2
    have hu := Tokens.Family.usable hi.family
    exact absurd hfl (Optimize.tokenize_fails_not (sampleEnv_good hm1 hs) hu.accepted hu.inRange)
  | optimize h hs hb ho =>
    intro r2 saved2 hi h2
    obtain ⟨st, e, _⟩ := optimize_good (sampleEnv_good hm1 hs) hi (ho.optimize hf)
    cases e
  | full h hs hb ho ht =>
    intro r2 saved2 hi h2
    rcases (round hi h hs ho ht h2).2 with ⟨e, g1, g2⟩ | ⟨_, g1, _⟩ | ⟨_, _, g1, _⟩
    · rw [g2, Except.error.inj g1]
    · cases g1
    · cases g1
  | stop h hs hb ho ht hstop =>
    intro r2 saved2 hi h2
    rcases (round hi h hs ho ht h2).2 with ⟨e, g1, g2⟩ | ⟨_, g1, _, g2⟩ | ⟨_, _, g1, g2, _⟩
    · cases g1
    · rw [g2, Except.ok.inj g1]
    · rw [← Except.ok.inj g1] at g2; exact absurd hstop g2
  | again h hs hb ho ht hstop hr ih =>
    intro r2 saved2 hi h2
    obtain ⟨hw, hc⟩ := round hi h hs ho ht h2
    rcases hc with ⟨e, g1, g2⟩ | ⟨_, g1, g2, _⟩ | ⟨_, _, g1, _, g2⟩
    · cases g1
    · rw [← Except.ok.inj g1] at g2; exact absurd g2 hstop
    · exact ih hw g2

theorem optimizedBy_one (hf : f.Sorts) (hm1 : MachineOk m1) (hm2 : MachineOk m2) {data : Bytes} {ntokens : Nat}
    {p : Processing} {ty : TokenType} {rawSize : Nat} {input : Option TokenSet}
    (hg : GoodInput ty p ntokens input) {minSize : Option Nat} {r1 r2 : R TokenStats}
    {saved1 saved2 : List (Text × Text)}
    (h1 : OptimizedBy f m1 data ntokens p ty rawSize input minSize r1 saved1)
    (h2 : OptimizedBy f m2 data ntokens p ty rawSize input minSize r2 saved2) : r1 = r2 := by
  have mem : ∀ {m : Machine} {env : Env}, MachineOk m → memoryEnv m data (some rawSize) = .ok env → EnvOk env := by
    intro m env hm hs
    obtain ⟨env', h1, h2, _⟩ := memoryEnv_ok hm data (some rawSize)
    have := Except.ok.inj (h1.symm.trans hs)
    subst this
    exact h2
  cases h1 with
  | increasing h1 =>
    cases h2 with
    | increasing h2 => exact increasingBy_one hf hm1 hm2 h1 hg h2
  | memory hz he h1 =>
    cases h2 with
    | memory hz' he' h2 =>
      obtain ⟨a, b⟩ := memoryEnv_same he he'
      exact optimizeBy_one hf (mem hm1 he) (mem hm2 he') a b hg h1 h2
    | memoryFail hz' he' =>
      obtain ⟨env, h1, _⟩ := memoryEnv_ok hm2 data (some rawSize)
      rw [h1] at he'; cases he'
    | file hz' => exact absurd hz hz'
    | fileFail hz' => exact absurd hz hz'
  | memoryFail hz he =>
    obtain ⟨env, h1, _⟩ := memoryEnv_ok hm1 data (some rawSize)
    rw [h1] at he; cases he
  | file hz he h1 =>
    cases h2 with
    | memory hz' => exact absurd hz' hz
    | memoryFail hz' => exact absurd hz' hz
    | file hz' he' h2 =>
      have := Except.ok.inj (he.symm.trans he')
      subst this
      exact optimizeBy_one (env1 := ⟨_, some rawSize, m1.nthreads⟩) (env2 := ⟨_, some rawSize, m2.nthreads⟩) hf
        ⟨hm1.threads, .inr (fileSampler_facts he).2.1⟩ ⟨hm2.threads, .inr (fileSampler_facts he).2.1⟩ rfl rfl hg h1 h2
    | fileFail hz' he' => rw [he] at he'; cases he'
  | fileFail hz he =>
    cases h2 with
    | memory hz' => exact absurd hz' hz
    | memoryFail hz' => exact absurd hz' hz
    | file hz' he' h2 => rw [he] at he'; cases he'
    | fileFail hz' he' => rw [he] at he'; rw [Except.error.inj he']

theorem convertFull_one (hm1 : MachineOk m1) (hm2 : MachineOk m2) (hdb : m1.db = m2.db)
    (hratio : m1.ratio = m2.ratio) {raw : Bytes} {processed : Option Bytes} {v : Json} {r1 r2 : R (Text × Text)}
    (h1 : ConvertFull m1 raw processed v r1) (h2 : ConvertFull m2 raw processed v r2) : r1 = r2 := by
  have hmp : ∀ p, maybeProcessFile m1 raw processed p = maybeProcessFile m2 raw processed p := by
    intro p; unfold maybeProcessFile; rw [hdb]
  have hst : statsFile m1 = statsFile m2 := by
    funext st; unfold statsFile; rw [hratio]
  -- a set that is loaded
  have conv : ∀ {m : Machine} {r : R (Text × Text)}, ConvertFull m raw processed v r →
      (∃ e, TokenSet.fromJson v = .error e ∧ r = .error e) ∨
      ∃ ts, TokenSet.fromJson v = .ok ts ∧
        ((∃ e, maybeProcessFile m raw processed ts.processing = .error e ∧ r = .error e) ∨
         ∃ data rt, maybeProcessFile m raw processed ts.processing = .ok data ∧
           TokenizedFull m data ts (some raw.length) rt ∧ r = rt >>= statsFile m) := by
    intro m r h
    cases h with
    | load h => exact .inl ⟨_, h, rfl⟩
    | process a b => exact .inr ⟨_, a, .inl ⟨_, b, rfl⟩⟩
    | tokenize a b c => exact .inr ⟨_, a, .inr ⟨_, _, b, c, rfl⟩⟩
    | write a b c => exact .inr ⟨_, a, .inr ⟨_, _, b, c, rfl⟩⟩
  rcases conv h1 with ⟨e, a, rfl⟩ | ⟨ts, a, k⟩
  · rcases conv h2 with ⟨e', a', rfl⟩ | ⟨ts, a', _⟩
    · rw [a] at a'; rw [Except.error.inj a']
    · rw [a] at a'; cases a'
  · rcases conv h2 with ⟨e', a', rfl⟩ | ⟨ts', a', k'⟩
    · rw [a] at a'; cases a'
    · have := Except.ok.inj (a.symm.trans a')
      subst this
      rw [← hmp] at k'
      rcases k with ⟨e, b, rfl⟩ | ⟨data, rt, b, c, rfl⟩
      · rcases k' with ⟨e', b', rfl⟩ | ⟨data', rt', b', _⟩
        · rw [b] at b'; rw [Except.error.inj b']
        · rw [b] at b'; cases b'
      · rcases k' with ⟨e', b', rfl⟩ | ⟨data', rt', b', c', rfl⟩
        · rw [b] at b'; cases b'
        · have := Except.ok.inj (b.symm.trans b')
          subst this
          rw [tokenizedFull_one hm1 hm2 (fromJson_loaded a).inRange c c', hst]

end Tokens
