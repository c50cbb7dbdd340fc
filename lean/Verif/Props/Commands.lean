import Verif.Proofs.Commands
import Verif.Proofs.Close
import Verif.Proofs.ProcessBytes

/-!
# Properties C40, C47, C48: the commands

Read together with `Verif/Spec/Commands.lean`.  The commands are relations between their arguments and
every outcome they may have.
-/

namespace Tokens.Props
open Tokens Spec TokenSet Optimize Batch Main Input

/-! ## C40 optimizing with increasing data -/

/-- What `optimize_with_increasing_data` should return: the statistics, on the full data, of a set that
the tokenizer accepts, losslessly decodable, of the requested type and processing, within budget. -/
structure FullResult (file : Bytes) (n : Option Nat) (ty : TokenType) (p : Processing) (ntokens : Nat)
    (st : TokenStats) : Prop where
  stats : FullStats file n st
  accepted : ∃ tk, FragmentTokenizer.new st.tokenSet = .ok tk
  sorted : Sorted st.tokenSet
  lossless : Lossless st.tokenSet
  type : st.tokenSet.tokenType = ty
  processing : st.tokenSet.processing = p
  budget : st.tokenSet.tokens.length ≤ ntokens

/-- **C40** (the part that holds).  If `optimize_with_increasing_data` returns, then with the statistics
of a valid set on the full data; that takes a round with a size above 2^24 and below the size of the
file.  Otherwise it panics: in the file sampler (see C25), or because no round was the last.
Missing: that it returns, see the next theorems. -/
theorem C40_result_partial (m : Machine) (hm : MachineOk m) (file : Bytes) (ntokens : Nat) (p : Processing)
    (ty : TokenType) (n : Option Nat) (size : Nat) (input : Option TokenSet)
    (hi : GoodInput ty p ntokens input) (r : R TokenStats) (saved : List (Text × Text))
    (h : Increasing m file ntokens p ty n size input r saved) :
    (∃ st k, r = .ok st ∧ FullResult file n ty p ntokens st ∧ 2 ^ 24 < size * 2 ^ k ∧
      size * 2 ^ k < file.length) ∨
    (∃ short e, fileSampler file (2 ^ 24) short = .error e ∧ r = .error e) ∨
    r = .error .unwrapNone := by
  induction h with
  | exhausted h => exact .inr (.inr rfl)
  | sample h hs =>
    obtain ⟨env, h1, _⟩ := sampleEnv_ok hm file _ n
    rw [h1] at hs; cases hs
  | before h hs hf =>
    obtain ⟨env, h1, h2, _⟩ := sampleEnv_ok hm file _ n
    have := Except.ok.inj (h1.symm.trans hs)
    subst this
    have hu := Tokens.Family.usable hi.family
    exact absurd hf (tokenize_fails_not h2 hu.accepted hu.inRange)
  | optimize h hs hb ho =>
    obtain ⟨env, h1, h2, _⟩ := sampleEnv_ok hm file _ n
    have := Except.ok.inj (h1.symm.trans hs)
    subst this
    obtain ⟨st, e, _⟩ := optimize_good h2 hi ho
    cases e
  | full h hs hb ho hf =>
    obtain ⟨env, h1, h2, _⟩ := sampleEnv_ok hm file _ n
    have := Except.ok.inj (h1.symm.trans hs)
    subst this
    obtain ⟨st, e, _, hw⟩ := optimize_good h2 hi ho
    cases e
    have hu := Tokens.Family.usable hw.family
    rcases tokenized_good hm hu.accepted hu.inRange hf with ⟨_, e, _⟩ | ⟨short, e, h3, h4⟩
    · cases e
    · exact .inr (.inl ⟨short, e, h3, h4⟩)
  | stop h hs hb ho hf hstop =>
    obtain ⟨env, h1, h2, _⟩ := sampleEnv_ok hm file _ n
    have := Except.ok.inj (h1.symm.trans hs)
    subst this
    obtain ⟨st, e, hres, hw⟩ := optimize_good h2 hi ho
    cases e
    have hu := Tokens.Family.usable hw.family
    rcases tokenized_good hm hu.accepted hu.inRange hf with ⟨st', e, h3, h4⟩ | ⟨short, e, h3, h4⟩
    · cases e
      refine .inl ⟨_, 0, rfl, ⟨h4, ?_, ?_, ?_, ?_, ?_, ?_⟩, ?_, ?_⟩
      · rw [h3]; exact hres.accepted
      · rw [h3]; exact hres.sorted
      · rw [h3]; exact hres.lossless
      · rw [h3]; exact hres.type
      · rw [h3]; exact hres.processing
      · rw [h3]; exact hres.budget
      · have : (1 <<< 24 : Nat) = 2 ^ 24 := by decide
        omega
      · omega
    · cases h4
  | again h hs hb ho hf hstop hr ih =>
    obtain ⟨env, h1, h2, _⟩ := sampleEnv_ok hm file _ n
    have := Except.ok.inj (h1.symm.trans hs)
    subst this
    obtain ⟨st, e, hres, hw⟩ := optimize_good h2 hi ho
    cases e
    rcases ih hw with ⟨st', k, h3, h4, h5, h6⟩ | h' | h'
    · have e : ∀ s k : Nat, s * 2 ^ (k + 1) = s * 2 * 2 ^ k := by
        intro s k; rw [Nat.pow_succ, Nat.mul_comm (2 ^ k), ← Nat.mul_assoc]
      exact .inl ⟨st', k + 1, h3, h4, by rw [e]; exact h5, by rw [e]; exact h6⟩
    · exact .inr (.inl h')
    · exact .inr (.inr h')

theorem total_pos {ts : TokenSet} (hseq : SeqsInRange ts) (hl : Lossless ts) {samples : List Bytes}
    {n : Option Nat} {st : TokenStats} (h : tokenizeFileSync ts samples n = .ok st)
    (hne : samples.flatten ≠ []) : 0 < st.scannedBytes ∧ 0 < st.totalTokens := by
  obtain ⟨_, h1, _, seg, h2, h3⟩ := C05_accounting ts hseq samples n st h
  obtain ⟨x, hx, hx0⟩ : ∃ x ∈ samples, x ≠ [] := by
    by_contra hc
    exact hne (List.flatten_eq_nil_iff.2 (fun l hl => by by_contra h0; exact hc ⟨l, hl, h0⟩))
  obtain ⟨a, b, rfl⟩ := List.append_of_mem hx
  have hxl := List.length_pos_iff.2 hx0
  constructor
  · rw [h1]; simp; omega
  · have : 0 < (output ts (seg x)).length := by
      apply List.length_pos_iff.2
      intro h0
      obtain ⟨dec, hd⟩ := hl
      have g1 := hd _ _ (h2 x hx).1
      have g2 := hd _ _ (.nil : Spells ts [] [])
      apply hx0
      rw [← g1, ← g2]
      unfold tokensOut
      rw [h0]
      rfl
    rw [h3]; simp; omega

/-- **C40**.  It only returns when the sample was good enough: there was a round with a size above 2^24
for whose sample the same token set gives a number of bytes per token that differs from the one on the
full data by less than 0.50001 % (the code says 0.5 %, in floating point). -/
theorem C40_stops_close (m : Machine) (hm : MachineOk m) (file : Bytes) (ntokens : Nat) (p : Processing)
    (ty : TokenType) (n : Option Nat) (size : Nat) (input : Option TokenSet)
    (hi : GoodInput ty p ntokens input) (st : TokenStats) (saved : List (Text × Text))
    (h : Increasing m file ntokens p ty n size input (.ok st) saved) :
    ∃ k s sd st0, 2 ^ 24 < size * 2 ^ k ∧ sampleFromFile file (size * 2 ^ k) (2 ^ 20) = .ok s ∧
      memorySampler s = .ok sd ∧ tokenizeFileSync st.tokenSet sd.samples n = .ok st0 ∧
      0 < st0.totalTokens ∧ 0 < st.totalTokens ∧
      |(st0.scannedBytes : ℚ) / st0.totalTokens - st.scannedBytes / st.totalTokens| <
        50001 / 10000000 * (st.scannedBytes / st.totalTokens) := by
  generalize hr : (Except.ok st : R TokenStats) = r at h
  induction h with
  | exhausted h => cases hr
  | sample h hs => cases hr
  | before h hs hf => cases hr
  | optimize h hs hb ho => cases hr
  | full h hs hb ho hf => cases hr
  | @stop size _ _ st1 _ _ h hs hb ho hf hstop =>
    obtain ⟨env, h1, h2, _⟩ := sampleEnv_ok hm file size n
    have := Except.ok.inj (h1.symm.trans hs)
    subst this
    have := Except.ok.inj hr
    subst this
    obtain ⟨st2, e, hres, hw⟩ := optimize_good h2 hi ho
    have := Except.ok.inj e
    subst this
    have hu := Tokens.Family.usable hw.family
    rcases tokenized_good hm hu.accepted hu.inRange hf with ⟨st', e, h3, h4⟩ | ⟨short, e, h3, h4⟩
    · have := Except.ok.inj e
      subst this
      obtain ⟨_, sd', _, hfl, htk⟩ := h4
      have hne : file ≠ [] := List.length_pos_iff.1 (by omega)
      rw [h3] at htk
      obtain ⟨p1, p2⟩ := total_pos hu.inRange hres.lossless htk (by rw [hfl]; exact hne)
      obtain ⟨c1, c2⟩ := closeEnough_spec p1 p2 hstop.2
      obtain ⟨full, f1, f2⟩ := hres.stats
      unfold sampleEnv memoryEnv at hs
      cases hsf : sampleFromFile file size (1 <<< 20) with
      | error e => rw [hsf] at hs; cases hs
      | ok s =>
        have hs20 : (1 <<< 20 : Nat) = 2 ^ 20 := by decide
        have hdat : s = ⟨s.data, 1 <<< 20⟩ := by
          unfold sampleFromFile at hsf
          cases hl : sampleLoop (lessShare size file.length) (splitLines file) [] [] 0 with
          | error e => rw [hl] at hsf; cases hsf
          | ok d => rw [hl] at hsf; exact (Except.ok.inj hsf) ▸ rfl
        simp only [hsf, R.ok_bind] at hs
        cases hms : memorySampler ⟨s.data, 1 <<< 20⟩ with
        | error e => rw [hms] at hs; cases hs
        | ok sd =>
          simp only [hms, R.ok_bind] at hs
          have he := Except.ok.inj hs
          have hk : (1 <<< 24 : Nat) = 2 ^ 24 := by decide
          refine ⟨0, s, sd, full, by omega, by rw [← hs20]; simpa using hsf, by rw [hdat]; exact hms, ?_, ?_, p2, ?_⟩
          · rw [h3]
            rw [← he] at f1
            exact f1
          · rw [f2] at c1; exact c1
          · rw [f2] at c2; exact c2
    · cases h4
  | @again size _ _ st1 _ st2 _ _ h hs hb ho hf hstop hr' ih =>
    obtain ⟨env, h1, h2, _⟩ := sampleEnv_ok hm file size n
    have := Except.ok.inj (h1.symm.trans hs)
    subst this
    obtain ⟨st, e, hres, hw⟩ := optimize_good h2 hi ho
    have := Except.ok.inj e
    subst this
    obtain ⟨k, s, sd, st0, g1, g2, g3⟩ := ih hw hr
    have e : size * 2 ^ (k + 1) = size * 2 * 2 ^ k := by
      rw [Nat.pow_succ, Nat.mul_comm (2 ^ k), ← Nat.mul_assoc]
    exact ⟨k + 1, s, sd, st0, by rw [e]; exact g1, by rw [e]; exact g2, g3⟩

/-- **C40**.  For a positive size there is an outcome: the sizes grow until they reach the size of the
file. -/
theorem C40_terminates (m : Machine) (hm : MachineOk m) (file : Bytes) (ntokens : Nat) (p : Processing)
    (ty : TokenType) (n : Option Nat) (size : Nat) (hsize : 0 < size) (input : Option TokenSet)
    (hi : GoodInput ty p ntokens input) :
    ∃ r saved, Increasing m file ntokens p ty n size input r saved := by
  obtain ⟨f, hf⟩ : ∃ f, file.length - size ≤ f := ⟨_, Nat.le_refl _⟩
  induction f generalizing size input with
  | zero => exact ⟨_, _, .exhausted (by omega)⟩
  | succ f ih =>
    by_cases h : size < file.length
    · obtain ⟨env, h1, h2, h3, h4⟩ := sampleEnv_ok hm file size n
      obtain ⟨st, w, ho⟩ := optimize_exists h2 hi
      obtain ⟨st', e, _, hw⟩ := optimize_good h2 hi ho
      cases e
      have hb : ∀ t, input = some t → ∃ st, TokenizeFile t env.sampler n m.nthreads st := by
        rintro t rfl
        have hu := Tokens.Family.usable hi.family
        rw [← h3, ← h4]
        exact tokenize_exists h2 hu.accepted hu.inRange
      have hu := Tokens.Family.usable hw.family
      obtain ⟨r, hr⟩ := tokenized_exists hm file hu.accepted hu.inRange n
      cases r with
      | error e => exact ⟨_, _, .full h h1 hb ho hr⟩
      | ok st' =>
        by_cases hstop : size > 1 <<< 24 ∧ closeEnough st st' = true
        · exact ⟨_, _, .stop h h1 hb ho hr hstop⟩
        obtain ⟨r, saved, hr'⟩ := ih (size * 2) (by omega) (some st.tokenSet) hw (by omega)
        exact ⟨_, _, .again h h1 hb ho hr hstop hr'⟩
    · exact ⟨_, _, .exhausted h⟩

/-- **C40** is violated for files of up to 2^24 + 1 bytes, and whenever the minimum size is at least
the size of the file: there is an outcome (for a positive size) and every outcome is a panic. -/
theorem C40_violated_small (m : Machine) (hm : MachineOk m) (file : Bytes) (ntokens : Nat) (p : Processing)
    (ty : TokenType) (n : Option Nat) (size : Nat) (hsize : 0 < size) (input : Option TokenSet)
    (hi : GoodInput ty p ntokens input) (hsmall : file.length ≤ 2 ^ 24 + 1 ∨ file.length ≤ size) :
    (∃ r saved, Increasing m file ntokens p ty n size input r saved) ∧
    ∀ r saved, Increasing m file ntokens p ty n size input r saved → ∃ e, r = .error e := by
  refine ⟨C40_terminates m hm file ntokens p ty n size hsize input hi, ?_⟩
  intro r saved h
  rcases C40_result_partial m hm file ntokens p ty n size input hi r saved h with
    ⟨st, k, _, _, h1, h2⟩ | ⟨_, e, _, h⟩ | h
  · rcases hsmall with h3 | h3
    · omega
    · have : size * 1 ≤ size * 2 ^ k := Nat.mul_le_mul_left _ Nat.one_le_two_pow
      omega
  · exact ⟨e, h⟩
  · exact ⟨_, h⟩

/-- **C40** is violated for the minimum size 0: if the file sampler does not panic, a non-empty file has
no outcome at all (the program goes on for ever). -/
theorem C40_violated_zero (m : Machine) (hm : MachineOk m) (file : Bytes) (hne : file ≠ []) (ntokens : Nat)
    (p : Processing) (ty : TokenType) (n : Option Nat) (input : Option TokenSet)
    (hi : GoodInput ty p ntokens input) (hs : ∀ short, ∃ sd, fileSampler file (2 ^ 24) short = .ok sd)
    (r : R TokenStats) (saved : List (Text × Text)) :
    ¬ Increasing m file ntokens p ty n 0 input r saved := by
  have hpos := List.length_pos_iff.2 hne
  generalize hz : 0 = size
  intro h
  induction h with
  | exhausted h => omega
  | sample h hs =>
    obtain ⟨env, h1, _⟩ := sampleEnv_ok hm file _ n
    rw [h1] at hs; cases hs
  | before h hs hf =>
    obtain ⟨env, h1, h2, _⟩ := sampleEnv_ok hm file _ n
    have := Except.ok.inj (h1.symm.trans hs)
    subst this
    have hu := Tokens.Family.usable hi.family
    exact absurd hf (tokenize_fails_not h2 hu.accepted hu.inRange)
  | optimize h hs hb ho =>
    obtain ⟨env, h1, h2, _⟩ := sampleEnv_ok hm file _ n
    have := Except.ok.inj (h1.symm.trans hs)
    subst this
    obtain ⟨st, e, _⟩ := optimize_good h2 hi ho
    cases e
  | full h hs' hb ho hf =>
    obtain ⟨env, h1, h2, _⟩ := sampleEnv_ok hm file _ n
    have := Except.ok.inj (h1.symm.trans hs')
    subst this
    obtain ⟨st, e, _, hw⟩ := optimize_good h2 hi ho
    cases e
    have hu := Tokens.Family.usable hw.family
    rcases tokenized_good hm hu.accepted hu.inRange hf with ⟨_, e, _⟩ | ⟨short, e, h3, h4⟩
    · cases e
    · obtain ⟨sd, h5⟩ := hs short
      rw [h3] at h5; cases h5
  | stop h hs hb ho hf hstop => omega
  | again h hs' hb ho hf hstop hr ih =>
    obtain ⟨env, h1, h2, _⟩ := sampleEnv_ok hm file _ n
    have := Except.ok.inj (h1.symm.trans hs')
    subst this
    obtain ⟨st, e, hres, hw⟩ := optimize_good h2 hi ho
    cases e
    exact ih hw (by omega)

/-- A machine. -/
def aMachine : Machine := ⟨asciiOnly, 4, fun _ _ => .null⟩

theorem aMachine_ok : MachineOk aMachine := ⟨by decide⟩

-- the hypotheses are met: a small ASCII file, four-bit tokens
example : MachineOk aMachine ∧ GoodInput .bits4 .raw 20 none ∧
    ∀ short, ∃ sd, fileSampler [97, 98, 10] (2 ^ 24) short = .ok sd :=
  ⟨aMachine_ok, by show 16 ≤ 20 ∧ 20 ≤ 16 + 256; decide, fun short => by
    obtain ⟨_, s, h, _⟩ := C25_ascii_exact_partial [97, 98, 10] (by decide) (2 ^ 24) (by decide) short
    exact ⟨_, h⟩⟩

/-! ## C47 the optimize command -/

/-- **C47** (preparation).  The data used is the raw file, the processed file given, or the result of
processing the raw file as text; preparing it fails only if that file has to be processed and is not
valid UTF-8. -/
theorem C47_data (m : Machine) (raw : Bytes) (processed : Option Bytes) (p : Processing) :
    (p = .raw → maybeProcessFile m raw processed p = .ok raw) ∧
    (∀ f, p = .capsWords → processed = some f → maybeProcessFile m raw processed p = .ok f) ∧
    (∀ text, p = .capsWords → processed = none → raw = utf8Encode text →
      ∃ out, Processing.processFile m.db text = .ok out ∧
        maybeProcessFile m raw processed p = .ok (utf8Encode out)) ∧
    ((∃ e, maybeProcessFile m raw processed p = .error e) ↔
      p = .capsWords ∧ processed = none ∧ validUtf8 raw = false) := by
  refine ⟨?_, ?_, ?_, ?_⟩
  · rintro rfl; cases processed <;> rfl
  · rintro f rfl rfl; rfl
  · rintro text rfl rfl rfl
    obtain ⟨out, h⟩ := processFile_ok m.db text
    refine ⟨out, h, ?_⟩
    unfold maybeProcessFile
    simp only [processBytes_text m.db text out h, R.ok_bind, if_true]
  · cases p with
    | raw => cases processed <;> simp [maybeProcessFile]
    | capsWords =>
      cases processed with
      | some f => simp [maybeProcessFile]
      | none =>
        simp only [true_and]
        unfold maybeProcessFile
        cases hd : validUtf8 raw with
        | false =>
          obtain ⟨ls, _, _, _, _, _, h⟩ := processBytes_bad m.db raw hd
          obtain ⟨out, h'⟩ := processFile_ok m.db (ls.flatMap (· ++ ['\n']))
          simp [h out h', bind, Except.bind]
        | true =>
          obtain ⟨text, rfl⟩ := validUtf8_iff.1 hd
          obtain ⟨out, h⟩ := processFile_ok m.db text
          simp [processBytes_text m.db text out h, bind, Except.bind]

/-- **C47**.  The optimize command without `--min-data-size`, on data below 2^34 bytes, from nothing
(with an admissible size) or from a set that the optimizer can work on: it ends, and every outcome is a
success.  It writes, after the files of C38, one file named after the set, with the statistics of a
result as in C38 for the data cut into chunks of 2^20 bytes; the set in it is regular. -/
theorem C47_optimize_command (m : Machine) (hm : MachineOk m) (ntokens : Nat) (raw : Bytes)
    (processed : Option Bytes) (p : Processing) (ty : TokenType) (input : Option Json)
    (ts : Option TokenSet) (hin : readInput input = .ok ts) (hg : GoodInput ty p ntokens ts)
    (hsize : raw.length < 2 ^ 34) (data : Bytes) (hd : maybeProcessFile m raw processed p = .ok data) :
    (∃ r, OptimizeCommand m ntokens raw processed p ty input none r) ∧
    ∀ r, OptimizeCommand m ntokens raw processed p ty input none r →
      ∃ (w : World) (st : TokenStats) (env : Env) (v : Json), r = .ok (w.saved ++ [(st.tokenSet.name ++ ".json".toList, v.render)]) ∧
        st.toJson m.ratio = .ok v ∧ memoryEnv m data (some raw.length) = .ok env ∧
        Result env ty p ntokens st w ∧ Regular st.tokenSet := by
  have hsz : raw.length < 1 <<< 34 := by
    have : (1 <<< 34 : Nat) = 2 ^ 34 := by decide
    omega
  obtain ⟨env, h1, h2, _⟩ := memoryEnv_ok hm data (some raw.length)
  have key : ∀ r saved, Optimized m data ntokens p ty raw.length ts none r saved →
      ∃ st w v, r = .ok st ∧ saved = w.saved ∧ Result env ty p ntokens st w ∧ Regular st.tokenSet ∧
        st.toJson m.ratio = .ok v ∧ statsFile m st = .ok (st.tokenSet.name ++ ".json".toList, v.render) := by
    intro r saved h
    cases h with
    | memory _ he h =>
      have := Except.ok.inj (h1.symm.trans he)
      subst this
      obtain ⟨st, k1, k2, k3⟩ := optimize_good h2 hg h
      have hr := regular_of_sorted k3.family k2.sorted
      obtain ⟨v, v1, v2, _⟩ := toJson_stats_ok m hr.inRange
      exact ⟨st, _, v, k1, rfl, k2, hr, v1, v2⟩
    | memoryFail _ he => rw [h1] at he; cases he
    | file hn => exact absurd hsz hn
    | fileFail hn => exact absurd hsz hn
  constructor
  · obtain ⟨st, w, h⟩ := optimize_exists h2 hg
    have ho : Optimized m data ntokens p ty raw.length ts none (.ok st) w.saved := .memory hsz h1 h
    obtain ⟨st', _, v, e, _, _, _, _, hv⟩ := key _ _ ho
    cases e
    exact ⟨_, .write hd hin ho hv⟩
  · intro r h
    cases h with
    | process h => rw [hd] at h; cases h
    | load _ h => rw [hin] at h; cases h
    | optimize ha hb h3 =>
      have := Except.ok.inj (hd.symm.trans ha)
      subst this
      have := Except.ok.inj (hin.symm.trans hb)
      subst this
      obtain ⟨_, _, _, e, _⟩ := key _ _ h3
      cases e
    | saveFail ha hb h3 h4 =>
      have := Except.ok.inj (hd.symm.trans ha)
      subst this
      have := Except.ok.inj (hin.symm.trans hb)
      subst this
      obtain ⟨_, _, _, e, _, _, _, _, h5⟩ := key _ _ h3
      cases e
      rw [h5] at h4; cases h4
    | write ha hb h3 h4 =>
      have := Except.ok.inj (hd.symm.trans ha)
      subst this
      have := Except.ok.inj (hin.symm.trans hb)
      subst this
      obtain ⟨st, w, v, e, e2, k1, k2, k3, k4⟩ := key _ _ h3
      cases e
      subst e2
      rw [k4] at h4
      have := Except.ok.inj h4
      subst this
      exact ⟨w, _, env, v, rfl, k3, h1, k1, k2⟩

/-- **C47** (large data).  The same for raw data of 2^34 bytes and more, where the file is read again in
chunks of 2^24 bytes for every tokenization: if the file sampler can deliver the data (see C24 to C26)
the command ends, and every outcome is a success as above, for the samples it delivers; if it cannot,
every outcome is its error. -/
theorem C47_optimize_large (m : Machine) (hm : MachineOk m) (ntokens : Nat) (raw : Bytes)
    (processed : Option Bytes) (p : Processing) (ty : TokenType) (input : Option Json)
    (ts : Option TokenSet) (hin : readInput input = .ok ts) (hg : GoodInput ty p ntokens ts)
    (hsize : 2 ^ 34 ≤ raw.length) (data : Bytes) (hd : maybeProcessFile m raw processed p = .ok data) :
    (∀ sd, fileSampler data (2 ^ 24) (fun _ => 2 ^ 24) = .ok sd →
      (∃ r, OptimizeCommand m ntokens raw processed p ty input none r) ∧
      ∀ r, OptimizeCommand m ntokens raw processed p ty input none r →
        ∃ (w : World) (st : TokenStats) (v : Json), r = .ok (w.saved ++ [(st.tokenSet.name ++ ".json".toList, v.render)]) ∧
          st.toJson m.ratio = .ok v ∧ Result ⟨sd, some raw.length, m.nthreads⟩ ty p ntokens st w ∧
          Regular st.tokenSet) ∧
    (∀ e, fileSampler data (2 ^ 24) (fun _ => 2 ^ 24) = .error e →
      OptimizeCommand m ntokens raw processed p ty input none (.error e) ∧
      ∀ r, OptimizeCommand m ntokens raw processed p ty input none r → r = .error e) := by
  have hsz : ¬ raw.length < 1 <<< 34 := by
    have : (1 <<< 34 : Nat) = 2 ^ 34 := by decide
    omega
  have h24 : (2 ^ 24 : Nat) = 1 <<< 24 := by decide
  rw [h24]
  constructor
  · intro sd hs
    have h2 : EnvOk ⟨sd, some raw.length, m.nthreads⟩ := ⟨hm.threads, .inr (fileSampler_facts hs).2.1⟩
    have key : ∀ r saved, Optimized m data ntokens p ty raw.length ts none r saved →
        ∃ st w v, r = .ok st ∧ saved = w.saved ∧ Result ⟨sd, some raw.length, m.nthreads⟩ ty p ntokens st w ∧
          Regular st.tokenSet ∧ st.toJson m.ratio = .ok v ∧
          statsFile m st = .ok (st.tokenSet.name ++ ".json".toList, v.render) := by
      intro r saved h
      cases h with
      | memory hn => exact absurd hn hsz
      | memoryFail hn => exact absurd hn hsz
      | file _ he h =>
        have := Except.ok.inj (hs.symm.trans he)
        subst this
        obtain ⟨st, k1, k2, k3⟩ := optimize_good h2 hg h
        have hr := regular_of_sorted k3.family k2.sorted
        obtain ⟨v, v1, v2, _⟩ := toJson_stats_ok m hr.inRange
        exact ⟨st, _, v, k1, rfl, k2, hr, v1, v2⟩
      | fileFail _ he => rw [hs] at he; cases he
    constructor
    · obtain ⟨st, w, h⟩ := optimize_exists h2 hg
      have ho : Optimized m data ntokens p ty raw.length ts none (.ok st) w.saved := .file hsz hs h
      obtain ⟨st', _, v, e, _, _, _, _, hv⟩ := key _ _ ho
      cases e
      exact ⟨_, .write hd hin ho hv⟩
    · intro r h
      cases h with
      | process h => rw [hd] at h; cases h
      | load _ h => rw [hin] at h; cases h
      | optimize ha hb h3 =>
        have := Except.ok.inj (hd.symm.trans ha)
        subst this
        have := Except.ok.inj (hin.symm.trans hb)
        subst this
        obtain ⟨_, _, _, e, _⟩ := key _ _ h3
        cases e
      | saveFail ha hb h3 h4 =>
        have := Except.ok.inj (hd.symm.trans ha)
        subst this
        have := Except.ok.inj (hin.symm.trans hb)
        subst this
        obtain ⟨_, _, _, e, _, _, _, _, h5⟩ := key _ _ h3
        cases e
        rw [h5] at h4; cases h4
      | write ha hb h3 h4 =>
        have := Except.ok.inj (hd.symm.trans ha)
        subst this
        have := Except.ok.inj (hin.symm.trans hb)
        subst this
        obtain ⟨st, w, v, e, e2, k1, k2, k3, k4⟩ := key _ _ h3
        cases e
        subst e2
        rw [k4] at h4
        have := Except.ok.inj h4
        subst this
        exact ⟨w, _, v, rfl, k3, k1, k2⟩
  · intro e hs
    have key : ∀ r saved, Optimized m data ntokens p ty raw.length ts none r saved → r = .error e := by
      intro r saved h
      cases h with
      | memory hn => exact absurd hn hsz
      | memoryFail hn => exact absurd hn hsz
      | file _ he h => rw [hs] at he; cases he
      | fileFail _ he =>
        rw [hs] at he
        have := Except.error.inj he
        subst this
        rfl
    refine ⟨.optimize hd hin (.fileFail hsz hs), fun r h => ?_⟩
    cases h with
    | process h => rw [hd] at h; cases h
    | load _ h => rw [hin] at h; cases h
    | optimize ha hb h3 =>
      have := Except.ok.inj (hd.symm.trans ha)
      subst this
      have := Except.ok.inj (hin.symm.trans hb)
      subst this
      rw [Except.error.inj (key _ _ h3)]
    | saveFail ha hb h3 h4 =>
      have := Except.ok.inj (hd.symm.trans ha)
      subst this
      have := Except.ok.inj (hin.symm.trans hb)
      subst this
      cases key _ _ h3
    | write ha hb h3 h4 =>
      have := Except.ok.inj (hd.symm.trans ha)
      subst this
      have := Except.ok.inj (hin.symm.trans hb)
      subst this
      cases key _ _ h3

-- any ASCII file that is large enough
example (n : Nat) (hn : 2 ^ 34 ≤ n) : 2 ^ 34 ≤ (List.replicate n (97 : UInt8)).length ∧
    maybeProcessFile aMachine (List.replicate n 97) none .raw = .ok (List.replicate n 97) ∧
    ∃ sd, fileSampler (List.replicate n 97) (2 ^ 24) (fun _ => 2 ^ 24) = .ok sd := by
  refine ⟨by rw [List.length_replicate]; exact hn, rfl, ?_⟩
  obtain ⟨_, s, h, _⟩ := C25_ascii_exact_partial (List.replicate n 97)
    (fun x hx => by rw [List.eq_of_mem_replicate hx]; decide) (2 ^ 24) (by decide) (fun _ => 2 ^ 24)
  exact ⟨_, h⟩

-- four-bit tokens from nothing
example : readInput none = .ok none ∧ GoodInput .bits4 .raw 20 none ∧
    maybeProcessFile aMachine [97, 98, 10] none .raw = .ok [97, 98, 10] :=
  ⟨rfl, by show 16 ≤ 20 ∧ 20 ≤ 16 + 256; decide, rfl⟩

/-! ## C48 the saved sets can be used again -/

theorem saved_loads (m : Machine) {ts : TokenSet} (hf : Family ts) (hs : Sorted ts)
    (hty : ts.tokenType = .bytes ∨ ts.tokenType = .bytesHuff ∨ ∀ b : UInt8, Token.str [b] ∈ ts.tokens)
    {v : Json} (hv : ts.toJson = .ok v ∨ ∃ st : TokenStats, st.tokenSet = ts ∧ st.toJson m.ratio = .ok v) :
    fromJson v = .ok { ts with splitParagraphs := false } := by
  have hr := regular_of_sorted hf hs
  obtain ⟨w, h1, h2⟩ := C17_roundtrip_partial ts hr hty
  rcases hv with hv | ⟨st, rfl, hv⟩
  · have := Except.ok.inj (h1.symm.trans hv)
    subst this
    exact h2
  · obtain ⟨v', w', g1, g2, g3⟩ := C17_stats_file m.ratio st hr.inRange
    have := Except.ok.inj (g1.symm.trans hv)
    subst this
    have := Except.ok.inj (h1.symm.trans g2)
    subst this
    rw [g3, h2]

/-- **C48** (the part that holds).  A sorted set of type bytes or byteshuff (or with a token for every
byte), as saved by any command, can be converted: the convert command writes a file of the same name
with the same set (except for the paragraph flag, which is not kept), with the statistics of the whole
data; and that file loads as the first one did.  The only other outcome is a panic of the file sampler
(see C25).  Missing: bits sets, see `C48_violated_bits`. -/
theorem C48_convert_partial (m : Machine) (hm : MachineOk m) (raw : Bytes) (processed : Option Bytes)
    (ts : TokenSet) (hf : Family ts) (hs : Sorted ts)
    (hty : ts.tokenType = .bytes ∨ ts.tokenType = .bytesHuff ∨ ∀ b : UInt8, Token.str [b] ∈ ts.tokens)
    (v : Json) (hv : ts.toJson = .ok v ∨ ∃ st : TokenStats, st.tokenSet = ts ∧ st.toJson m.ratio = .ok v)
    (data : Bytes) (hd : maybeProcessFile m raw processed ts.processing = .ok data) :
    (∃ r, ConvertCommand m raw processed v r) ∧
    ∀ r, ConvertCommand m raw processed v r →
      (∃ (st : TokenStats) (v' : Json), r = .ok (ts.name ++ ".json".toList, v'.render) ∧ st.toJson m.ratio = .ok v' ∧
        st.tokenSet = { ts with splitParagraphs := false } ∧
        FullStats data (some raw.length) st ∧ fromJson v' = fromJson v) ∨
      ∃ short e, fileSampler data (2 ^ 24) short = .error e ∧ r = .error e := by
  have hl := saved_loads m hf hs hty hv
  have hf' := family_flag hf false
  have hu := Tokens.Family.usable hf'
  constructor
  · obtain ⟨r, hr⟩ := tokenized_exists hm data hu.accepted hu.inRange (some raw.length)
    cases r with
    | error e => exact ⟨_, .tokenize hl hd hr⟩
    | ok st => exact ⟨_, .write hl hd hr⟩
  · intro r h
    cases h with
    | load h => rw [hl] at h; cases h
    | process h1 h2 =>
      have := Except.ok.inj (hl.symm.trans h1)
      subst this
      rw [hd] at h2; cases h2
    | tokenize h1 h2 h3 =>
      have := Except.ok.inj (hl.symm.trans h1)
      subst this
      have := Except.ok.inj (hd.symm.trans h2)
      subst this
      rcases tokenized_good hm hu.accepted hu.inRange h3 with ⟨_, e, _⟩ | ⟨short, e, k1, k2⟩
      · cases e
      · refine .inr ⟨short, e, k1, ?_⟩
        rw [Except.error.inj k2]
    | write h1 h2 h3 =>
      have := Except.ok.inj (hl.symm.trans h1)
      subst this
      have := Except.ok.inj (hd.symm.trans h2)
      subst this
      rcases tokenized_good hm hu.accepted hu.inRange h3 with ⟨st, e, k1, k2⟩ | ⟨short, e, k1, k2⟩
      · have := Except.ok.inj e
        subst this
        obtain ⟨v', v1, v2, _⟩ := toJson_stats_ok m (by rw [k1]; exact hu.inRange)
        refine .inl ⟨_, v', ?_, v1, k1, k2, ?_⟩
        · rw [v2, k1]; rfl
        · rw [hl]
          exact saved_loads m hf' hs hty (.inr ⟨_, k1, v1⟩)
      · cases k2

theorem not_tokenized {m : Machine} {file : Bytes} {ts : TokenSet} {n : Option Nat}
    (h : ∃ e, FragmentTokenizer.new ts = .error e) {r : R TokenStats} (ht : Tokenized m file ts n r) :
    ∃ e, r = .error e := by
  obtain ⟨e, he⟩ := h
  cases ht with
  | ok _ h2 =>
    cases h2 with
    | sync _ hs =>
      unfold tokenizeFileSync at hs
      rw [he] at hs
      cases hs
    | par _ hn => rw [he] at hn; cases hn
  | sampler => exact ⟨_, rfl⟩
  | tokenizer => exact ⟨_, rfl⟩

/-- **C48** is violated for the bits types: a saved set in which some byte has no token of its own makes
the convert command panic, whatever the data. -/
theorem C48_violated_bits (m : Machine) (raw : Bytes) (processed : Option Bytes) (ts : TokenSet)
    (hf : BitsFamily ts) (hs : Sorted ts) (b : UInt8) (hb : Token.str [b] ∉ ts.tokens) (v : Json)
    (hv : ts.toJson = .ok v) (r : R (Text × Text)) (h : ConvertCommand m raw processed v r) :
    ∃ e, r = .error e := by
  have hr := regular_of_sorted (.inl hf) hs
  obtain ⟨len, hp, _⟩ := hf.params
  have hty : ts.tokenType = .bits1 ∨ ts.tokenType = .bits2 ∨ ts.tokenType = .bits4 := by
    cases ht : ts.tokenType <;> rw [ht] at hp <;> simp [bitsParams] at hp <;> simp
  obtain ⟨tk, htk, _⟩ := FragmentTokenizer.new_ok_of hf.accepted
  obtain ⟨v', ts', h1, h2, h3⟩ := C17_fails_bits ts hr hty tk htk b hb
  have := Except.ok.inj (h1.symm.trans hv)
  subst this
  cases h with
  | load h => exact ⟨_, rfl⟩
  | process h1 h2 => exact ⟨_, rfl⟩
  | tokenize h1 h2 h3 => exact ⟨_, rfl⟩
  | write k1 k2 k3 =>
    have := Except.ok.inj (h2.symm.trans k1)
    subst this
    obtain ⟨e, he⟩ := not_tokenized h3 k3
    cases he

/-- **C48** (the part that holds, optimize).  A sorted bytes or byteshuff set that the optimizer can work
on for `n` tokens, as saved by any command, can be given to the optimize command for `n` or more tokens;
C47 then says what that does. -/
theorem C48_reuse_partial (m : Machine) (ty : TokenType) (p : Processing) (n n' : Nat) (hn : n ≤ n')
    (ts : TokenSet) (hw : Workable ty p n ts) (hs : Sorted ts) (hty : ty = .bytes ∨ ty = .bytesHuff)
    (v : Json) (hv : ts.toJson = .ok v ∨ ∃ st : TokenStats, st.tokenSet = ts ∧ st.toJson m.ratio = .ok v) :
    readInput (some v) = .ok (some { ts with splitParagraphs := false }) ∧
    GoodInput ty p n' (some { ts with splitParagraphs := false }) := by
  have hty' : ts.tokenType = .bytes ∨ ts.tokenType = .bytesHuff ∨ ∀ b : UInt8, Token.str [b] ∈ ts.tokens := by
    rw [hw.type]
    rcases hty with h | h
    · exact .inl h
    · exact .inr (.inl h)
  refine ⟨by simp only [readInput, saved_loads m hw.family hs hty' hv, R.ok_bind], ?_⟩
  have hw' := workable_flag hw false
  refine ⟨hw'.family, hw'.type, hw'.processing, Nat.le_trans hw'.size hn, ?_, hw'.huff⟩
  intro q hq
  rcases hty with rfl | rfl <;> simp [bitsParams] at hq

theorem not_accepted_run {env : Env} {ts : TokenSet} (h : ∃ e, FragmentTokenizer.new ts = .error e)
    {ntokens : Nat} {p : Processing} {ty : TokenType} {r : R TokenStats} {w : World}
    (ho : OptimizeTokenset env ntokens p ty (some ts) r w) : ∃ e, r = .error e := by
  have hnot : ∀ ts', ts.sort = .ok ts' → ¬ Tokenizable ts' := by
    intro ts' hs ht
    have := tokenizable_perm (pieceStrings_sameSet (sort_sameSet hs).1) ht
    obtain ⟨tk, h1, _⟩ := FragmentTokenizer.new_ok_of this
    obtain ⟨e, he⟩ := h
    rw [h1] at he; cases he
  have hgs : ∀ {w w' : World} {st : TokenStats}, w.cache = (fun _ => none) →
      ¬ Run env (getStats ts) w (.ok st) w' := by
    intro w w' st hw hrun
    have key : ∀ c c' st, c = (fun _ => none) →
        ¬ GetStats env.sampler env.initialSize env.nthreads c ts c' st := by
      intro c c' st hc hg
      cases hg with
      | hit _ _ h => rw [hc] at h; cases h
      | miss hs _ _ ht =>
        cases ht with
        | sync _ h =>
          obtain ⟨_, _, _, ht, _⟩ := sync_inv (sort_inRange hs) h
          exact hnot _ hs ht
        | par _ hn _ _ => exact hnot _ hs (FragmentTokenizer.ok_of_new hn).2
    cases hrun with
    | stats hg _ => exact key _ _ _ hw hg
  cases ho with
  | run h1 h2 =>
    cases h1
    cases h2 with
    | done h1 _ _ => exact absurd h1 (hgs rfl)
    | firstFail _ => exact ⟨_, rfl⟩
    | loopFail h1 _ => exact absurd h1 (hgs rfl)
  | startFail h1 => exact ⟨_, rfl⟩

/-- **C48** is violated for the bits types: a saved set in which some byte has no token of its own, given
to the optimize command as input, makes it panic, whatever the data (here without `--min-data-size`). -/
theorem C48_violated_bits_input (m : Machine) (ntokens : Nat) (raw : Bytes) (processed : Option Bytes)
    (p : Processing) (ty : TokenType) (ts : TokenSet) (hf : BitsFamily ts) (hs : Sorted ts) (b : UInt8)
    (hb : Token.str [b] ∉ ts.tokens) (v : Json) (hv : ts.toJson = .ok v)
    (r : R (List (Text × Text))) (h : OptimizeCommand m ntokens raw processed p ty (some v) none r) :
    ∃ e, r = .error e := by
  have hr := regular_of_sorted (.inl hf) hs
  obtain ⟨len, hp, _⟩ := hf.params
  have hty : ts.tokenType = .bits1 ∨ ts.tokenType = .bits2 ∨ ts.tokenType = .bits4 := by
    cases ht : ts.tokenType <;> rw [ht] at hp <;> simp [bitsParams] at hp <;> simp
  obtain ⟨tk, htk, _⟩ := FragmentTokenizer.new_ok_of hf.accepted
  obtain ⟨v', ts', h1, h2, h3⟩ := C17_fails_bits ts hr hty tk htk b hb
  have := Except.ok.inj (h1.symm.trans hv)
  subst this
  have hin : ∀ t, readInput (some v') = .ok t → t = some ts' := by
    intro t ht
    simp only [readInput, h2, R.ok_bind] at ht
    exact (Except.ok.inj ht).symm
  have key : ∀ st saved data t, readInput (some v') = .ok t →
      ¬ Optimized m data ntokens p ty raw.length t none (.ok st) saved := by
    intro st saved data t ht ho
    have := hin t ht
    subst this
    cases ho with
    | memory _ _ h => obtain ⟨e, he⟩ := not_accepted_run h3 h; cases he
    | file _ _ h => obtain ⟨e, he⟩ := not_accepted_run h3 h; cases he
  cases h with
  | process => exact ⟨_, rfl⟩
  | load => exact ⟨_, rfl⟩
  | optimize => exact ⟨_, rfl⟩
  | saveFail => exact ⟨_, rfl⟩
  | write _ k2 k3 _ => exact absurd k3 (key _ _ _ _ k2)

-- a byteshuff set as the optimizer returns it
example : ∃ ts v, Workable .bytesHuff .raw 300 ts ∧ Sorted ts ∧ ts.toJson = .ok v := by
  obtain ⟨st, w, h⟩ := optimize_exists (ty := .bytesHuff) (p := .raw) (ntokens := 300) (input := none)
    smallEnv_ok (by show 3 ≤ 300; decide)
  obtain ⟨st', _, h1, h2⟩ := optimize_good smallEnv_ok (by show 3 ≤ 300; decide) h
  exact ⟨_, _, h2, h1.sorted, toJson_eq _ (Tokens.Family.usable h2.family).inRange⟩

-- the four-bit set, sorted: no byte has a token of its own
example : ∃ ts v, BitsFamily ts ∧ Sorted ts ∧ Token.str [97] ∉ ts.tokens ∧ ts.toJson = .ok v := by
  obtain ⟨ts, h0, h⟩ := workable_bits4
  obtain ⟨ts', hs⟩ := (sort_ok_iff ts).2 (Tokens.Family.usable h.family).inRange
  have hss := sort_sameSet hs
  have hf := sort_family h.family hs
  have hb : BitsFamily ts' := by
    have hty := hss.1.header.tokenType.trans h.type
    rcases hf with h' | h' | h'
    · exact h'
    · rw [h'.type] at hty; cases hty
    · rw [h'.type] at hty; cases hty
  refine ⟨ts', _, hb, ⟨hss.2.1, hss.2.2.1⟩, ?_, toJson_eq _ hb.inRange⟩
  rw [hss.1.tokens.mem_iff]
  rw [newBits4_eq] at h0
  have h0 := Except.ok.inj h0
  rw [← h0]
  decide

end Tokens.Props
