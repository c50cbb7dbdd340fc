import Verif.Proofs.Running
import Verif.Props.Disk

/-!
# Properties C37, C57, C58 for executions that have not ended

Read together with `Verif/Spec/Disk.lean`.  `Running m d cmd ws` (`Verif/Model/Running.lean`): the
command `cmd`, started on the files `d`, may at some moment have written the files `ws`, in this order.
An execution with `--min-data-size 0` may have no end (C40), so that `Exec` says nothing about it.
-/

namespace Tokens.Props
open Tokens Spec TokenSet Optimize Batch Main Input Disk

set_option linter.unusedVariables false

/-- **C37**.  The optimizer has no dead ends: wherever an execution with good input has come to, and
whatever files it has written, there is a successful execution that writes these files first. -/
theorem C37_no_dead_end (env : Env) (he : EnvOk env) (ty : TokenType) (p : Processing) (ntokens : Nat)
    (input : Option TokenSet) (hi : GoodInput ty p ntokens input) (w : World)
    (h : PartTokenset env ntokens p ty input w) :
    ∃ st w', OptimizeTokenset env ntokens p ty input (.ok st) w' ∧ w.saved <+: w'.saved := by
  obtain ⟨r, w', h1, h2⟩ := partTokenset_complete he hi h
  obtain ⟨st, rfl, _⟩ := optimize_good he hi h1
  exact ⟨st, w', h1, h2⟩

-- the start of an execution; the hypotheses are met
example : PartTokenset smallEnv 20 .raw .bits4 none ⟨fun _ => none, []⟩ ∧ EnvOk smallEnv ∧
    GoodInput .bits4 .raw 20 none :=
  ⟨.start .here, smallEnv_ok, by show 16 ≤ 20 ∧ 20 ≤ 16 + 256; decide⟩

/-- **C57**.  An optimize command that starts from nothing, or from a set that the optimizer can work
on, is killed at any moment, also if it would never end.  Then each file is as before, or reading it is
an error, or it is the complete file of a valid set of the requested type, processing and size. -/
theorem C57_running_killed (m : Machine) (hm : MachineOk m) (hr : RatioText m.ratio) (d : Files)
    (data : Text) (processed : Option Text) (dir : Text) (p : Processing) (ty : TokenType) (ntokens : Nat)
    (inputTokens : Option Text) (minSize : Option Nat) (hg : StartsGood d p ty ntokens inputTokens)
    (hsmall : SmallEnough m d (.optimize data processed dir p ty ntokens inputTokens minSize))
    (ws : List (Text × Bytes))
    (h : Running m d (.optimize data processed dir p ty ntokens inputTokens minSize) ws)
    (d' : Files) (hs : Stopped ws d d') (path : Text) :
    AfterCrash d d' path (ValidSet ty p ntokens) := by
  cases h with
  | nothing => cases hs; exact .same rfl
  | ended h =>
    exact C57_optimize_killed m hm hr d data processed dir p ty ntokens inputTokens minSize hg hsmall _ ws h
      d' hs path
  | optimize hr' hp hi hd ht ho =>
    refine crash_of_written hs ?_ path
    intro w hw
    exact saved_written (partOptimized_good hm (starts_input hg hi ht) ho) dir w (attempt_sub rfl w hw)

/-- **C58**.  Every command, on any files, killed at any moment, also if it would never end, leaves all
files as they were except the ones it is meant to write. -/
theorem C58_running_nothing_else (m : Machine) (d : Files) (cmd : Command) (ws : List (Text × Bytes))
    (h : Running m d cmd ws) (d' : Files) (hs : Stopped ws d d') (path : Text)
    (hp : ¬ MayWrite cmd path) : d'.read path = d.read path := by
  rcases stopped_read hs path with h1 | ⟨b, part, rest, h1, _⟩
  · exact h1
  · exact absurd (running_where h _ h1) hp

/-- **C58**.  An optimize command with good input has, at any moment, written only files of the requested
type and processing, with no more tokens than asked for. -/
theorem C58_running_names (m : Machine) (hm : MachineOk m) (d : Files) (data : Text)
    (processed : Option Text) (dir : Text) (p : Processing) (ty : TokenType) (ntokens : Nat)
    (inputTokens : Option Text) (minSize : Option Nat) (hg : StartsGood d p ty ntokens inputTokens)
    (ws : List (Text × Bytes))
    (h : Running m d (.optimize data processed dir p ty ntokens inputTokens minSize) ws) :
    ∀ w ∈ ws, ∃ n ≤ ntokens, w.1 = fileIn dir (tokenFile n p ty) := by
  cases h with
  | nothing => simp
  | ended h =>
    exact C58_optimize_names m hm d data processed dir p ty ntokens inputTokens minSize hg _ ws h
  | optimize hr' hp hi hd ht ho =>
    intro w hw
    obtain ⟨f, hf, rfl⟩ := List.mem_map.1 (attempt_sub rfl w hw)
    obtain ⟨ts, h1, h2⟩ := partOptimized_good hm (starts_input hg hi ht) ho f hf
    refine ⟨ts.tokens.length, h1.budget, ?_⟩
    simp only []
    rw [(written_saved h1.regular.inRange h2).1, tokenFile_name, h1.processing, h1.type, joinPath_eq]

/-! ## C40 an execution without end -/

/-- Rounds that are over are part of an execution. -/
theorem rounds_part {m : Machine} {file : Bytes} {ntokens : Nat} {p : Processing} {ty : TokenType}
    {n : Option Nat} {k size : Nat} {ts : Option TokenSet} {size' : Nat} {ts' : Option TokenSet}
    {saved : List (Text × Text)} (h : Rounds m file ntokens p ty n k size ts size' ts' saved) :
    PartIncreasing m file ntokens p ty n size ts saved := by
  induction h with
  | none => exact .head
  | round h hs hb ho hf hstop _ ih => exact .again h hs hb ho hf hstop ih

/-- **C40** is violated for the minimum size 0: the loop goes on for ever.  For any number of rounds there
is an execution with that many rounds, and the size is 0 in each of them: the optimizer works on no data
at all. -/
theorem C40_zero_forever (m : Machine) (hm : MachineOk m) (file : Bytes) (hne : file ≠ []) (ntokens : Nat)
    (p : Processing) (ty : TokenType) (n : Option Nat) (hs : ∀ short, ∃ sd, fileSampler file (2 ^ 24) short = .ok sd)
    (input : Option TokenSet) (hi : GoodInput ty p ntokens input) :
    (∀ k, ∃ input' saved, Rounds m file ntokens p ty n k 0 input 0 input' saved) ∧
    ∀ k size input' saved, Rounds m file ntokens p ty n k 0 input size input' saved → size = 0 := by
  constructor
  · intro k
    induction k generalizing input with
    | zero => exact ⟨_, _, .none⟩
    | succ k ih =>
      obtain ⟨env, h1, h2, h3, h4⟩ := sampleEnv_ok hm file 0 n
      obtain ⟨st, w, ho⟩ := optimize_exists h2 hi
      obtain ⟨st', e, _, hw⟩ := optimize_good h2 hi ho
      cases e
      have hb : ∀ t, input = some t → ∃ st, TokenizeFile t env.sampler n m.nthreads st := by
        rintro t rfl
        have hu := Tokens.Family.usable hi.family
        rw [← h3, ← h4]
        exact tokenize_exists h2 hu.accepted hu.inRange
      have hu := Tokens.Family.usable hw.family
      obtain ⟨r, hr⟩ := tokenized_exists hm file hu.accepted hu.inRange n
      rcases tokenized_good hm hu.accepted hu.inRange hr with ⟨full, rfl, _⟩ | ⟨short, e, g1, g2⟩
      · obtain ⟨input', saved, h⟩ := ih (some st.tokenSet) hw
        exact ⟨_, _, .round (List.length_pos_iff.2 hne) h1 hb ho hr (by omega) h⟩
      · obtain ⟨sd, h5⟩ := hs short
        have g1' : fileSampler file (2 ^ 24) short = .error e := g1
        rw [g1'] at h5; cases h5
  · intro k size input' saved h
    have key : ∀ {k size size' : Nat} {input input' : Option TokenSet} {saved : List (Text × Text)},
        Rounds m file ntokens p ty n k size input size' input' saved → size = 0 → size' = 0 := by
      intro k size size' input input' saved h
      induction h with
      | none => exact id
      | round _ _ _ _ _ _ _ ih => exact fun e => ih (by omega)
    exact key h rfl

-- a command that never ends, after seven rounds
example : ∃ ws, Running aMachine someFiles
    (.optimize "data".toList none "dir".toList .raw .bits4 20 none (some 0)) ws ∧
    ∃ input saved, ws = inDir "dir".toList saved ∧
      Rounds aMachine [97, 98, 10] 20 .raw .bits4 (some 3) 7 0 none 0 input saved := by
  have hb : openFile someFiles "data".toList = .ok [97, 98, 10] := rfl
  obtain ⟨input, saved, h⟩ := (C40_zero_forever aMachine aMachine_ok [97, 98, 10] (by simp) 20 .raw .bits4 (some 3)
    (fun short => by
      obtain ⟨_, s, h, _⟩ := C25_ascii_exact_partial [97, 98, 10] (by decide) (2 ^ 24) (by decide) short
      exact ⟨_, h⟩) none (by show 16 ≤ 20 ∧ 20 ≤ 16 + 256; decide)).1 7
  refine ⟨_, .optimize (ts := none) (v := none) hb rfl rfl rfl rfl (.increasing (rounds_part h)), input, saved, ?_, h⟩
  have hc : (inDir "dir".toList saved).all (fun w => someFiles.creatable w.1) = true :=
    List.all_eq_true.2 (fun _ _ => rfl)
  rw [attempt, if_pos hc]

/-- What a round that is over has computed. -/
theorem round_facts {m : Machine} (hm : MachineOk m) {file : Bytes} {ntokens : Nat} {p : Processing}
    {ty : TokenType} {n : Option Nat} {size : Nat} {input : Option TokenSet}
    (hi : GoodInput ty p ntokens input) {env : Env} {st st' : TokenStats} {w : World}
    (h : size < file.length) (hs : sampleEnv m file size n = .ok env)
    (ho : OptimizeTokenset env ntokens p ty input (.ok st) w)
    (hf : Tokenized m file st.tokenSet n (.ok st')) :
    Workable ty p ntokens st.tokenSet ∧ st'.tokenSet = st.tokenSet ∧ FullStats file n st' ∧
    0 < st'.scannedBytes ∧ 0 < st'.totalTokens ∧
    ∃ s sd st0, sampleFromFile file size (2 ^ 20) = .ok s ∧ memorySampler s = .ok sd ∧
      tokenizeFileSync st.tokenSet sd.samples n = .ok st0 ∧ st0.scannedBytes = st.scannedBytes ∧
      st0.totalTokens = st.totalTokens := by
  obtain ⟨env', h1, h2, _⟩ := sampleEnv_ok hm file size n
  have := Except.ok.inj (h1.symm.trans hs)
  subst this
  obtain ⟨st2, e, hres, hw⟩ := optimize_good h2 hi ho
  have := Except.ok.inj e
  subst this
  have hu := Tokens.Family.usable hw.family
  rcases tokenized_good hm hu.accepted hu.inRange hf with ⟨st3, e, h3, h4⟩ | ⟨short, e, h3, h4⟩
  · have := Except.ok.inj e
    subst this
    refine ⟨hw, h3, h4, ?_⟩
    obtain ⟨_, sd', _, hfl, htk⟩ := h4
    have hne : file ≠ [] := List.length_pos_iff.1 (by omega)
    rw [h3] at htk
    obtain ⟨p1, p2⟩ := total_pos hu.inRange hres.lossless htk (by rw [hfl]; exact hne)
    refine ⟨p1, p2, ?_⟩
    obtain ⟨full, f1, f2⟩ := hres.stats
    unfold sampleEnv memoryEnv at hs
    have hs20 : (1 <<< 20 : Nat) = 2 ^ 20 := by decide
    rw [← hs20]
    cases hsf : sampleFromFile file size (1 <<< 20) with
    | error e => rw [hsf] at hs; cases hs
    | ok s =>
      have hdat : s = ⟨s.data, 1 <<< 20⟩ := by
        unfold sampleFromFile at hsf
        cases hl : sampleLoop (lessShare size file.length) (splitLines file) [] [] 0 with
        | error e => rw [hl] at hsf; cases hsf
        | ok d => rw [hl] at hsf; exact (Except.ok.inj hsf) ▸ rfl
      simp only [hsf, R.ok_bind] at hs
      cases hms : memorySampler ⟨s.data, 1 <<< 20⟩ with
      | error e => rw [hms] at hs; cases hs
      | ok sd =>
        simp only [hms, R.ok_bind] at hs
        have he := Except.ok.inj hs
        refine ⟨s, sd, full, rfl, by rw [hdat]; exact hms, ?_, ?_, ?_⟩
        · rw [← he] at f1
          exact f1
        · rw [f2]; rfl
        · rw [f2]; rfl
  · cases h4

/-- **C40**.  It does not go on once the sample is good enough: if a round with a size above 2^24 is
followed by another one (in whatever execution, after whatever rounds), then for its sample and the full
data the token set it ended with gives numbers of bytes per token that differ by more than 0.49999 % (the
code says 0.5 %, in floating point).  The next round has twice the size and starts with that set, which is
valid. -/
theorem C40_goes_on (m : Machine) (hm : MachineOk m) (file : Bytes) (ntokens : Nat) (p : Processing)
    (ty : TokenType) (n : Option Nat) (k size : Nat) (input : Option TokenSet)
    (hi : GoodInput ty p ntokens input) (size' : Nat) (input' : Option TokenSet) (saved : List (Text × Text))
    (h : Rounds m file ntokens p ty n (k + 1) size input size' input' saved) :
    size' = size * 2 ^ (k + 1) ∧ size * 2 ^ k < file.length ∧
    ∃ full s sd st0, input' = some full.tokenSet ∧ GoodInput ty p ntokens input' ∧ FullStats file n full ∧
      sampleFromFile file (size * 2 ^ k) (2 ^ 20) = .ok s ∧
      memorySampler s = .ok sd ∧ tokenizeFileSync full.tokenSet sd.samples n = .ok st0 ∧
      (2 ^ 24 < size * 2 ^ k →
        49999 / 10000000 * ((full.scannedBytes : ℚ) / full.totalTokens) <
          |(st0.scannedBytes : ℚ) / st0.totalTokens - full.scannedBytes / full.totalTokens|) := by
  induction k generalizing size input saved with
  | zero =>
    cases h with
    | round h hs hb ho hf hstop hr =>
      cases hr with
      | none =>
        obtain ⟨hw, e1, hfull, q1, q2, s, sd, st0, r1, r2, r3, r4, r5⟩ := round_facts hm hi h hs ho hf
        refine ⟨by omega, by omega, _, s, sd, st0, by rw [e1], ?_, hfull, by simpa using r1, r2, by rw [e1]; exact r3, ?_⟩
        · exact hw
        · intro hbig
          have hk : (1 <<< 24 : Nat) = 2 ^ 24 := by decide
          rw [r4, r5]
          exact notClose_spec q1 q2 (fun hc => hstop ⟨by omega, hc⟩)
  | succ k ih =>
    cases h with
    | round h hs hb ho hf hstop hr =>
      obtain ⟨hw, _⟩ := round_facts hm hi h hs ho hf
      obtain ⟨e1, e2, full, s, sd, st0, e3, e4, e5, e6, e7⟩ := ih _ (some _) hw _ hr
      have e : ∀ k, size * 2 ^ (k + 1) = size * 2 * 2 ^ k := fun k => by
        rw [Nat.pow_succ, Nat.mul_comm (2 ^ k), ← Nat.mul_assoc]
      exact ⟨by rw [e1, e], by rw [e]; exact e2, full, s, sd, st0, e3, e4, e5, by rw [e]; exact e6, by rw [e]; exact e7⟩

-- a round that is followed by another one
example : ∃ input saved, Rounds aMachine [97, 98, 10] 20 .raw .bits4 (some 3) 1 1 none 2 input saved := by
  have hm := aMachine_ok
  have hi : GoodInput .bits4 .raw 20 none := by show 16 ≤ 20 ∧ 20 ≤ 16 + 256; decide
  obtain ⟨env, h1, h2, h3, h4⟩ := sampleEnv_ok hm [97, 98, 10] 1 (some 3)
  obtain ⟨st, w, ho⟩ := optimize_exists h2 hi
  obtain ⟨st', e, _, hw⟩ := optimize_good h2 hi ho
  cases e
  have hu := Tokens.Family.usable hw.family
  obtain ⟨r, hr⟩ := tokenized_exists hm [97, 98, 10] hu.accepted hu.inRange (some 3)
  rcases tokenized_good hm hu.accepted hu.inRange hr with ⟨full, rfl, _⟩ | ⟨short, e, g1, g2⟩
  · exact ⟨_, _, .round (by decide) h1 (fun t ht => nomatch ht) ho hr
      (fun hc => absurd hc.1 (by decide)) .none⟩
  · obtain ⟨_, s, h, _⟩ := C25_ascii_exact_partial [97, 98, 10] (by decide) (2 ^ 24) (by decide) short
    have g1' : fileSampler [97, 98, 10] (2 ^ 24) short = .error e := g1
    rw [g1'] at h; cases h

end Tokens.Props
