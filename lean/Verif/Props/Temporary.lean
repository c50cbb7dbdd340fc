import Verif.Props.Writing
import Verif.Props.Commands
import Verif.Props.Batch

/-!
# Property C84: a full temporary directory

`convert` and `optimize`, when they have to process the data themselves, write the processed text to a
temporary file and read it back.  `ConvertTo`, `OptimizeTo` (`Verif/Model/Writing.lean`): what the commands may
do if the device with that file may write in pieces of any size, and fail at any moment.
-/

namespace Tokens.Props
open Tokens Writing Main Input Spec Batch TokenSet Optimize

set_option linter.unusedVariables false

/-- The bytes used instead of the processed text: a beginning of it, with at most the last 8192 bytes
missing. -/
def Shortened (whole out : Bytes) : Prop := ∃ lost, out ++ lost = whole ∧ lost.length ≤ 8192

/-- **C84** (preparation, the part that holds).  Without processing, or with a processed file, the device
does not matter.  Otherwise the bytes used are the processed text, without at most 8192 bytes at its end;
text that is not UTF-8 is never used.  Missing: that none are missing, see `C84_violated_convert`. -/
theorem C84_prepare_partial (m : Machine) (raw : Bytes) (processed : Option Bytes) (p : Processing)
    (r : R Bytes) (h : PrepareTo m raw processed p r) :
    (p = .raw ∨ processed.isSome → r = maybeProcessFile m raw processed p) ∧
    (∀ data, r = .ok data → ∃ whole, maybeProcessFile m raw processed p = .ok whole ∧ Shortened whole data) := by
  have same : ∀ whole : Bytes, Shortened whole whole := fun _ => ⟨[], by simp, by simp⟩
  cases h with
  | raw =>
    refine ⟨fun _ => by cases processed <;> rfl, fun data e => ⟨raw, by cases processed <;> rfl, ?_⟩⟩
    rw [← Except.ok.inj e]; exact same _
  | @given f =>
    refine ⟨fun _ => rfl, fun data e => ⟨f, rfl, ?_⟩⟩
    rw [← Except.ok.inj e]; exact same _
  | @temp out h =>
    refine ⟨fun h => by simp at h, fun data e => ?_⟩
    have := Except.ok.inj e
    subst this
    cases hv : validUtf8 raw with
    | false => exact absurd rfl (C78_not_text m.db raw hv out _ h)
    | true =>
      obtain ⟨text, rfl⟩ := validUtf8_iff.1 hv
      obtain ⟨z, hz, hm⟩ := (C47_data m (utf8Encode text) none .capsWords).2.2.1 text rfl rfl rfl
      obtain ⟨lost, e1, e2, _⟩ := C78_process_partial m.db text z hz out _ h
      exact ⟨_, hm, lost, e1, e2 rfl⟩
  | @tempFail out e h =>
    exact ⟨fun h => by simp at h, fun data e => by cases e⟩

/-- The command with the temporary file is the command with that file given as processed data. -/
theorem convertTo_given {m : Machine} {raw out : Bytes} {processed : Option Bytes} {v : Json} {ts : TokenSet}
    (hl : fromJson v = .ok ts) (hp : PrepareTo m raw processed ts.processing (.ok out)) {r : R (Text × Text)}
    (h : ConvertCommand m raw (some out) v r) : ConvertTo m raw processed v r := by
  have hg : maybeProcessFile m raw (some out) ts.processing = .ok out := by
    generalize ts.processing = p at hp
    cases hp <;> rfl
  cases h with
  | load h => rw [hl] at h; cases h
  | process h1 h2 =>
    have := Except.ok.inj (hl.symm.trans h1)
    subst this
    rw [hg] at h2; cases h2
  | tokenize h1 h2 h3 =>
    have := Except.ok.inj (hl.symm.trans h1)
    subst this
    have := Except.ok.inj (hg.symm.trans h2)
    subst this
    exact .tokenize hl hp h3
  | write h1 h2 h3 =>
    have := Except.ok.inj (hl.symm.trans h1)
    subst this
    have := Except.ok.inj (hg.symm.trans h2)
    subst this
    exact .write hl hp h3

theorem convertTo_inv {m : Machine} {raw : Bytes} {processed : Option Bytes} {v : Json} {ts : TokenSet}
    (hl : fromJson v = .ok ts) {r : R (Text × Text)} (h : ConvertTo m raw processed v r) :
    (∃ e, PrepareTo m raw processed ts.processing (.error e) ∧ r = .error e) ∨
    ∃ out, PrepareTo m raw processed ts.processing (.ok out) ∧
      maybeProcessFile m raw (some out) ts.processing = .ok out ∧ ConvertCommand m raw (some out) v r := by
  have hg : ∀ out, PrepareTo m raw processed ts.processing (.ok out) →
      maybeProcessFile m raw (some out) ts.processing = .ok out := by
    intro out hp
    generalize ts.processing = p at hp
    cases hp <;> rfl
  cases h with
  | load h => rw [hl] at h; cases h
  | process h1 h2 =>
    have := Except.ok.inj (hl.symm.trans h1)
    subst this
    exact .inl ⟨_, h2, rfl⟩
  | tokenize h1 h2 h3 =>
    have := Except.ok.inj (hl.symm.trans h1)
    subst this
    exact .inr ⟨_, h2, hg _ h2, .tokenize hl (hg _ h2) h3⟩
  | write h1 h2 h3 =>
    have := Except.ok.inj (hl.symm.trans h1)
    subst this
    exact .inr ⟨_, h2, hg _ h2, .write hl (hg _ h2) h3⟩

theorem optimizeTo_given {m : Machine} {raw out : Bytes} {processed : Option Bytes} {p : Processing}
    {ty : TokenType} {ntokens : Nat} {v : Option Json} {minSize : Option Nat}
    (hp : PrepareTo m raw processed p (.ok out)) {r : R (List (Text × Text))}
    (h : OptimizeCommand m ntokens raw (some out) p ty v minSize r) :
    OptimizeTo m ntokens raw processed p ty v minSize r := by
  have hg : maybeProcessFile m raw (some out) p = .ok out := by cases hp <;> rfl
  cases h with
  | process h => rw [hg] at h; cases h
  | load h1 h2 => exact .load hp h2
  | optimize h1 h2 h3 =>
    have := Except.ok.inj (hg.symm.trans h1)
    subst this
    exact .optimize hp h2 h3
  | saveFail h1 h2 h3 h4 =>
    have := Except.ok.inj (hg.symm.trans h1)
    subst this
    exact .saveFail hp h2 h3 h4
  | write h1 h2 h3 h4 =>
    have := Except.ok.inj (hg.symm.trans h1)
    subst this
    exact .write hp h2 h3 h4

theorem optimizeTo_inv {m : Machine} {raw : Bytes} {processed : Option Bytes} {p : Processing}
    {ty : TokenType} {ntokens : Nat} {v : Option Json} {minSize : Option Nat} {r : R (List (Text × Text))}
    (h : OptimizeTo m ntokens raw processed p ty v minSize r) :
    (∃ e, PrepareTo m raw processed p (.error e) ∧ r = .error e) ∨
    ∃ out, PrepareTo m raw processed p (.ok out) ∧ maybeProcessFile m raw (some out) p = .ok out ∧
      OptimizeCommand m ntokens raw (some out) p ty v minSize r := by
  have hg : ∀ out, PrepareTo m raw processed p (.ok out) → maybeProcessFile m raw (some out) p = .ok out := by
    intro out hp
    cases hp <;> rfl
  cases h with
  | process h => exact .inl ⟨_, h, rfl⟩
  | load h1 h2 => exact .inr ⟨_, h1, hg _ h1, .load (hg _ h1) h2⟩
  | optimize h1 h2 h3 => exact .inr ⟨_, h1, hg _ h1, .optimize (hg _ h1) h2 h3⟩
  | saveFail h1 h2 h3 h4 => exact .inr ⟨_, h1, hg _ h1, .saveFail (hg _ h1) h2 h3 h4⟩
  | write h1 h2 h3 h4 => exact .inr ⟨_, h1, hg _ h1, .write (hg _ h1) h2 h3 h4⟩

theorem fullStats_scanned {data : Bytes} {n : Option Nat} {st : TokenStats} (hr : SeqsInRange st.tokenSet)
    (h : FullStats data n st) : st.scannedBytes = data.length := by
  obtain ⟨short, sd, h1, h2, h3⟩ := h
  have := (C05_accounting _ hr _ _ _ h3).2.1
  rw [this, ← h2, List.length_flatten]

/-- **C84** (convert, the part that holds).  For a set that can be converted (C48), with a temporary directory
on a device that may fail: the command fails, or it writes the statistics of the processed text, without at
most 8192 bytes at its end.  The number of bytes in the statistics tells how many are missing. -/
theorem C84_convert_partial (m : Machine) (hm : MachineOk m) (raw : Bytes) (processed : Option Bytes)
    (ts : TokenSet) (hf : Family ts) (hs : Sorted ts)
    (hty : ts.tokenType = .bytes ∨ ts.tokenType = .bytesHuff ∨ ∀ b : UInt8, Token.str [b] ∈ ts.tokens)
    (v : Json) (hv : ts.toJson = .ok v ∨ ∃ st : TokenStats, st.tokenSet = ts ∧ st.toJson m.ratio = .ok v)
    (f : Text × Text) (h : ConvertTo m raw processed v (.ok f)) :
    ∃ (whole out : Bytes) (st : TokenStats) (v' : Json),
      maybeProcessFile m raw processed ts.processing = .ok whole ∧ Shortened whole out ∧
      (ts.processing = .raw ∨ processed.isSome → out = whole) ∧
      f = (ts.name ++ ".json".toList, v'.render) ∧ st.toJson m.ratio = .ok v' ∧
      st.tokenSet = { ts with splitParagraphs := false } ∧ FullStats out (some raw.length) st ∧
      st.scannedBytes = out.length := by
  have hl := saved_loads m hf hs hty hv
  rcases convertTo_inv hl h with ⟨e, _, h2⟩ | ⟨out, h1, hg, h2⟩
  · cases h2
  · obtain ⟨p1, p2⟩ := C84_prepare_partial m raw processed ts.processing _ h1
    obtain ⟨whole, w1, w2⟩ := p2 out rfl
    rcases (C48_convert_partial m hm raw (some out) ts hf hs hty v hv out hg).2 _ h2 with
      ⟨st, v', e, k1, k2, k3, _⟩ | ⟨_, _, _, e⟩
    · refine ⟨whole, out, st, v', w1, w2, ?_, Except.ok.inj e, k1, k2, k3, ?_⟩
      · intro hc
        exact Except.ok.inj ((p1 hc).trans w1)
      · exact fullStats_scanned (by rw [k2]; exact (Tokens.Family.usable hf).inRange) k3
    · cases e

/-- **C84** (optimize, the part that holds).  The same for optimize, without `--min-data-size` and with raw
data below 2^34 bytes: it fails, or its result (as in C47) is one for the processed text, without at most
8192 bytes at its end. -/
theorem C84_optimize_partial (m : Machine) (hm : MachineOk m) (ntokens : Nat) (raw : Bytes)
    (processed : Option Bytes) (p : Processing) (ty : TokenType) (input : Option Json)
    (ts : Option TokenSet) (hin : readInput input = .ok ts) (hg : GoodInput ty p ntokens ts)
    (hsize : raw.length < 2 ^ 34) (l : List (Text × Text))
    (h : OptimizeTo m ntokens raw processed p ty input none (.ok l)) :
    ∃ (whole out : Bytes) (w : World) (st : TokenStats) (env : Env) (v : Json),
      maybeProcessFile m raw processed p = .ok whole ∧ Shortened whole out ∧
      (p = .raw ∨ processed.isSome → out = whole) ∧
      l = w.saved ++ [(st.tokenSet.name ++ ".json".toList, v.render)] ∧ st.toJson m.ratio = .ok v ∧
      memoryEnv m out (some raw.length) = .ok env ∧ Result env ty p ntokens st w := by
  rcases optimizeTo_inv h with ⟨e, _, h2⟩ | ⟨out, h1, hd, h2⟩
  · cases h2
  · obtain ⟨p1, p2⟩ := C84_prepare_partial m raw processed p _ h1
    obtain ⟨whole, w1, w2⟩ := p2 out rfl
    obtain ⟨w, st, env, v, e, k1, k2, k3, _⟩ :=
      (C47_optimize_command m hm ntokens raw (some out) p ty input ts hin hg hsize out hd).2 _ h2
    exact ⟨whole, out, w, st, env, v, w1, w2, fun hc => Except.ok.inj ((p1 hc).trans w1),
      Except.ok.inj e, k1, k2, k3⟩

/-- **C84**.  A device that does not fail makes no difference: everything the commands may do according to
C47 and C48 is possible. -/
theorem C84_works (m : Machine) (raw : Bytes) (processed : Option Bytes) (p : Processing) (whole : Bytes)
    (h : maybeProcessFile m raw processed p = .ok whole) : PrepareTo m raw processed p (.ok whole) := by
  cases p with
  | raw =>
    have : whole = raw := by cases processed <;> exact (Except.ok.inj h).symm
    rw [this]; exact .raw
  | capsWords =>
    cases processed with
    | some f => cases h; exact .given
    | none =>
      cases hv : validUtf8 raw with
      | false =>
        obtain ⟨e, he⟩ := (C47_data m raw none .capsWords).2.2.2.2 ⟨rfl, rfl, hv⟩
        rw [he] at h; cases h
      | true =>
        obtain ⟨text, rfl⟩ := validUtf8_iff.1 hv
        obtain ⟨z, hz, hm⟩ := (C47_data m (utf8Encode text) none .capsWords).2.2.1 text rfl rfl rfl
        rw [hm] at h
        rw [← Except.ok.inj h]
        exact .temp (C78_process_works m.db text z hz)

theorem empty_samples (short : Nat → Nat) : ∃ sd, fileSampler [] (2 ^ 24) short = .ok sd := by
  obtain ⟨_, s, h, _⟩ := C25_ascii_exact_partial [] (by simp) (2 ^ 24) (by decide) short
  exact ⟨_, h⟩

/-- **C84** is violated (convert): for every text whose processed form has less than 8192 bytes, and every
set that can be converted, the command may succeed and write statistics of no data at all, whereas with a
device that does not fail it counts all bytes of the processed text. -/
theorem C84_violated_convert (m : Machine) (hm : MachineOk m) (text z : Text)
    (hz : Processing.processFile m.db text = .ok z) (hl : (utf8Encode z).length < 8192)
    (ts : TokenSet) (hf : Family ts) (hs : Sorted ts) (hp : ts.processing = .capsWords)
    (hty : ts.tokenType = .bytes ∨ ts.tokenType = .bytesHuff ∨ ∀ b : UInt8, Token.str [b] ∈ ts.tokens)
    (v : Json) (hv : ts.toJson = .ok v ∨ ∃ st : TokenStats, st.tokenSet = ts ∧ st.toJson m.ratio = .ok v) :
    (∃ f st v', ConvertTo m (utf8Encode text) none v (.ok f) ∧ f = (ts.name ++ ".json".toList, v'.render) ∧
      TokenStats.toJson m.ratio st = .ok v' ∧ st.scannedBytes = 0) ∧
    ∀ f, ConvertCommand m (utf8Encode text) none v (.ok f) → ∃ st v',
      f = (ts.name ++ ".json".toList, v'.render) ∧
      TokenStats.toJson m.ratio st = .ok v' ∧ st.scannedBytes = (utf8Encode z).length := by
  have hu := Tokens.Family.usable hf
  constructor
  · have hprep : PrepareTo m (utf8Encode text) none ts.processing (.ok []) := by
      rw [hp]
      exact .temp (C78_violated_any m.db text z hz hl [] _ rfl)
    have hg : maybeProcessFile m (utf8Encode text) (some []) ts.processing = .ok [] := by rw [hp]; rfl
    obtain ⟨⟨r, hr⟩, hall⟩ := C48_convert_partial m hm (utf8Encode text) (some []) ts hf hs hty v hv [] hg
    rcases hall r hr with ⟨st, v', e, k1, k2, k3, _⟩ | ⟨short, e, he, _⟩
    · subst e
      exact ⟨_, st, v', convertTo_given (saved_loads m hf hs hty hv) hprep hr, rfl, k1,
        fullStats_scanned (by rw [k2]; exact hu.inRange) k3⟩
    · obtain ⟨sd, h⟩ := empty_samples short
      rw [h] at he; cases he
  · intro f h
    have hd : maybeProcessFile m (utf8Encode text) none ts.processing = .ok (utf8Encode z) := by
      rw [hp]
      obtain ⟨z', hz', hm⟩ := (C47_data m (utf8Encode text) none .capsWords).2.2.1 text rfl rfl rfl
      rw [hz] at hz'
      rw [Except.ok.inj hz']; exact hm
    rcases (C48_convert_partial m hm _ none ts hf hs hty v hv _ hd).2 _ h with
      ⟨st, v', e, k1, k2, k3, _⟩ | ⟨_, _, _, e⟩
    · exact ⟨st, v', Except.ok.inj e, k1, fullStats_scanned (by rw [k2]; exact hu.inRange) k3⟩
    · cases e

/-- **C84** is violated (optimize): in the same way the optimizer may work on no data at all, and the command
succeeds. -/
theorem C84_violated_optimize (m : Machine) (hm : MachineOk m) (text z : Text)
    (hz : Processing.processFile m.db text = .ok z) (hl : (utf8Encode z).length < 8192)
    (hsize : (utf8Encode text).length < 2 ^ 34) (ntokens : Nat) (ty : TokenType) (input : Option Json)
    (ts : Option TokenSet) (hin : readInput input = .ok ts) (hg : GoodInput ty .capsWords ntokens ts) :
    ∃ (w : World) (st : TokenStats) (env : Env) (v : Json),
      OptimizeTo m ntokens (utf8Encode text) none .capsWords ty input none
        (.ok (w.saved ++ [(st.tokenSet.name ++ ".json".toList, v.render)])) ∧
      st.toJson m.ratio = .ok v ∧ memoryEnv m [] (some (utf8Encode text).length) = .ok env ∧
      Result env ty .capsWords ntokens st w := by
  have hprep : PrepareTo m (utf8Encode text) none .capsWords (.ok []) :=
    .temp (C78_violated_any m.db text z hz hl [] _ rfl)
  obtain ⟨⟨r, hr⟩, hall⟩ := C47_optimize_command m hm ntokens (utf8Encode text) (some []) .capsWords ty input
    ts hin hg hsize [] rfl
  obtain ⟨w, st, env, v, e, k1, k2, k3, _⟩ := hall r hr
  subst e
  exact ⟨w, st, env, v, optimizeTo_given hprep hr, k1, k2, k3⟩

-- the hypotheses are met: "Hi", and a set for capitalised words that the optimizer has made
example : ∃ ts v z, Processing.processFile aMachine.db ['H', 'i'] = .ok z ∧ (utf8Encode z).length < 8192 ∧
    Family ts ∧ Sorted ts ∧ ts.processing = .capsWords ∧ ts.tokenType = .bytesHuff ∧ ts.toJson = .ok v := by
  obtain ⟨st, w, h⟩ := optimize_exists (ty := .bytesHuff) (p := .capsWords) (ntokens := 300) (input := none)
    smallEnv_ok (by show 3 ≤ 300; decide)
  obtain ⟨st', _, h1, h2⟩ := optimize_good smallEnv_ok (by show 3 ≤ 300; decide) h
  have hz : Processing.processFile aMachine.db ['H', 'i'] = .ok ['\x14', 'h', 'i', '\x16', '\n'] := rfl
  exact ⟨_, _, _, hz, by decide, h2.family, h1.sorted, h2.processing, h2.type,
    toJson_eq _ (Tokens.Family.usable h2.family).inRange⟩

example : GoodInput .bytesHuff .capsWords 300 none := by show 3 ≤ 300; decide

end Tokens.Props
