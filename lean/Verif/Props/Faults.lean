import Verif.Proofs.Faults
import Verif.Spec.Faults

/-!
# Property C85: the commands on devices that may fail

`Faults.Exec m d cmd r left` (`Verif/Model/Faults.lean`): the command `cmd`, started on the files `d`, may end
with the result `r` having left `left` in the files it has created, in this order, if the system delivers and
takes bytes in portions of any size and may fail at any read and any write.  `Disk.Exec m d cmd (r, ws)`: the
same for a system that does not fail.
-/

namespace Tokens.Props
open Tokens Spec TokenSet Optimize Batch Main Input Disk

set_option linter.unusedVariables false

theorem openProcessed_of {m : Machine} {d : Files} {data : Text} {raw bytes : Bytes} {processed : Option Text}
    {p : Processing} (h : DataRead m d data processed p raw bytes) :
    ∃ file, openFile d data = .ok raw ∧ openProcessed d processed p = .ok file ∧
      maybeProcessFile m raw file p = .ok bytes := dataRead_iff.1 h

theorem optimize_exec {m : Machine} {d : Files} {data : Text} {processed : Option Text} {dir : Text}
    {p : Processing} {ty : TokenType} {ntokens : Nat} {inputTokens : Option Text} {minSize : Option Nat}
    {raw bytes : Bytes} {ts : Option TokenSet} {st : TokenStats} {saved : List (Text × Text)} {f : Text × Text}
    (hd : DataRead m d data processed p raw bytes) (hi : Faults.ReadInput d inputTokens ts)
    (ho : Main.Optimized m bytes ntokens p ty raw.length ts minSize (.ok st) saved) (hs : statsFile m st = .ok f)
    (hc : (inDir dir (saved ++ [f])).all (fun w => d.creatable w.1) = true) :
    Disk.Exec m d (.optimize data processed dir p ty ntokens inputTokens minSize)
      (.ok (), inDir dir (saved ++ [f])) := by
  obtain ⟨v, h1, h2, _⟩ := Faults.readInput_real hi
  obtain ⟨file, k1, k2, k3⟩ := openProcessed_of hd
  have := Disk.Exec.optimize (tokensDir := dir) k1 k2 h1 k3 h2 ho hs
  rw [attempt, if_pos hc] at this
  exact this

theorem convert_exec {m : Machine} {d : Files} {data : Text} {processed : Option Text} {inputTokens dir : Text}
    {raw bytes : Bytes} {ts : TokenSet} {st : TokenStats} {f : Text × Text}
    (hd : DataRead m d data processed ts.processing raw bytes)
    (hi : Faults.ReadInput d (some inputTokens) (some ts))
    (ht : Main.Tokenized m bytes ts (some raw.length) (.ok st)) (hs : statsFile m st = .ok f)
    (hc : (inDir dir [f]).all (fun w => d.creatable w.1) = true) :
    Disk.Exec m d (.convert data processed inputTokens dir) (.ok (), inDir dir [f]) := by
  obtain ⟨v, h1, h2, h3⟩ := Faults.readInput_real hi
  obtain ⟨j, e1, e2, t, e3, e4⟩ := h3 _ rfl
  have := Option.some.inj e3
  subst this
  obtain ⟨file, k1, k2, k3⟩ := openProcessed_of hd
  have hcmd : ConvertCommand m raw file j (.ok f) := by
    rw [← hs]
    exact .write e4 k3 ht
  have := Disk.Exec.convert (tokensDir := dir) e2 k1
    (fun ts' h => by have := Except.ok.inj (e4.symm.trans h); subst this; exact k2) hcmd
  rw [attempt, if_pos hc] at this
  exact this

theorem readInput_set {d : Files} {inputTokens : Text} {ts : TokenSet}
    (hi : Faults.ReadInput d (some inputTokens) (some ts)) :
    ∃ b, d.read inputTokens = some b ∧ readTokenSet b = .ok ts := by
  obtain ⟨v, h1, h2, h3⟩ := Faults.readInput_real hi
  obtain ⟨j, e1, e2, t, e3, e4⟩ := h3 _ rfl
  have := Option.some.inj e3
  subst this
  exact readJson_set e2 e4

/-- **C85** (success).  A command that does not process data itself and reports success, on devices that may
fail, has done what it does on devices that do not fail, and has written the same files with the same
contents. -/
theorem C85_success (m : Machine) (d : Files) (cmd : Command) (hg : DataGiven d cmd) (left : List (Text × Bytes))
    (h : Faults.Exec m d cmd (.ok ()) left) : Disk.Exec m d cmd (.ok (), left) := by
  generalize hr : (Except.ok () : R Unit) = r at h
  cases h with
  | early => cases hr
  | process => exact absurd hg id
  | @countChars data file r' ok order ho hf h =>
    obtain ⟨h1, h2⟩ := C83_count order file r' ok h
    cases ok with
    | false => obtain ⟨e, he⟩ := h2 rfl; subst he; cases hr
    | true =>
      refine .countChars order ho ?_
      rw [openFile_iff.2 hf, R.ok_bind, h1 rfl]
  | @convert data processed inputTokens dir raw ts bytes st f left ok e hi hr' hp ht hs hw =>
    cases ok with
    | false => cases hr
    | true =>
      obtain ⟨e1, e2⟩ := Faults.writeFiles_ok hw
      obtain ⟨whole, k1, _, k3⟩ := Faults.prepare_read hr' hp
      have hb : bytes = whole := by
        refine k3 ?_
        rcases hg with h | h
        · exact .inr h
        · obtain ⟨b, g1, g2⟩ := readInput_set hi
          exact .inl (h b ts g1 g2)
      subst hb
      rw [e1]
      simp only [if_true]
      exact convert_exec k1 hi (Faults.tokenized_real ht) hs e2
  | optimizeFail => cases hr
  | @optimize data processed dir p ty ntokens inputTokens minSize raw bytes ts st saved f left ok e hr' hp hi ho hs hw =>
    cases ok with
    | false => cases hr
    | true =>
      obtain ⟨e1, e2⟩ := Faults.writeFiles_ok hw
      obtain ⟨whole, k1, _, k3⟩ := Faults.prepare_read hr' hp
      have hb := k3 hg
      subst hb
      rw [e1]
      simp only [if_true]
      exact optimize_exec k1 hi ((Faults.optimized_real ho).2 _ rfl) hs e2

theorem dataRead_temp {m : Machine} {d : Files} {data : Text} {p : Processing} {raw whole out : Bytes} {t : Text}
    (h : DataRead m d data none p raw whole) (hp : p = .capsWords) (ht : t ≠ data) :
    DataRead m (d.write t out) data (some t) p raw out := by
  subst hp
  have hr : (d.write t out).read data = d.read data := by simp [Files.write, Ne.symm ht]
  refine .given ?_ rfl (by simp [Files.write])
  rw [hr]
  cases h with
  | given h => exact h
  | made h => exact h

theorem readInput_temp {d : Files} {inputTokens : Option Text} {ts : Option TokenSet} {t : Text} {out : Bytes}
    (h : Faults.ReadInput d inputTokens ts) (ht : inputTokens ≠ some t) :
    Faults.ReadInput (d.write t out) inputTokens ts := by
  cases h with
  | none => exact .none
  | @some f b v ok ts hf hv hts =>
    refine .some ?_ hv hts
    have : f ≠ t := fun e => ht (by rw [e])
    simp [Files.write, this, hf]

/-- **C85** (success of optimize with own processing).  If optimize, processing the data itself, reports
success on devices that may fail, it has done what it does on devices that do not fail when it is given (in
any file `t`) the processed text without at most 8192 bytes at its end.  (That bytes may be missing is a
defect, see C84.) -/
theorem C85_success_optimize (m : Machine) (d : Files) (data dir : Text) (ty : TokenType) (ntokens : Nat)
    (inputTokens : Option Text) (minSize : Option Nat) (left : List (Text × Bytes))
    (h : Faults.Exec m d (.optimize data none dir .capsWords ty ntokens inputTokens minSize) (.ok ()) left) :
    ∃ raw whole out, DataRead m d data none .capsWords raw whole ∧ AlmostAll whole out ∧
      ∀ t, t ≠ data → inputTokens ≠ some t →
        Disk.Exec m (d.write t out) (.optimize data (some t) dir .capsWords ty ntokens inputTokens minSize)
          (.ok (), left) := by
  generalize hr : (Except.ok () : R Unit) = r at h
  cases h with
  | early => cases hr
  | optimizeFail => cases hr
  | @optimize _ _ _ _ _ _ _ _ raw bytes ts st saved f left ok e hr' hp hi ho hs hw =>
    cases ok with
    | false => cases hr
    | true =>
      obtain ⟨e1, e2⟩ := Faults.writeFiles_ok hw
      obtain ⟨whole, k1, k2, _⟩ := Faults.prepare_read hr' hp
      refine ⟨raw, whole, bytes, k1, k2, ?_⟩
      intro t ht hti
      rw [e1]
      exact optimize_exec (dataRead_temp k1 rfl ht) (readInput_temp hi hti)
        ((Faults.optimized_real ho).2 _ rfl) hs e2

/-- **C85** (success of convert with own processing), in the same way. -/
theorem C85_success_convert (m : Machine) (d : Files) (data inputTokens dir : Text) (left : List (Text × Bytes))
    (h : Faults.Exec m d (.convert data none inputTokens dir) (.ok ()) left) :
    ∃ b ts raw whole out, d.read inputTokens = some b ∧ readTokenSet b = .ok ts ∧
      DataRead m d data none ts.processing raw whole ∧ AlmostAll whole out ∧
      (ts.processing = .raw → Disk.Exec m d (.convert data none inputTokens dir) (.ok (), left)) ∧
      (ts.processing = .capsWords → ∀ t, t ≠ data → t ≠ inputTokens →
        Disk.Exec m (d.write t out) (.convert data (some t) inputTokens dir) (.ok (), left)) := by
  generalize hr : (Except.ok () : R Unit) = r at h
  cases h with
  | early => cases hr
  | @convert _ _ _ _ raw ts bytes st f left ok e hi hr' hp ht hs hw =>
    cases ok with
    | false => cases hr
    | true =>
      obtain ⟨e1, e2⟩ := Faults.writeFiles_ok hw
      obtain ⟨whole, k1, k2, k3⟩ := Faults.prepare_read hr' hp
      obtain ⟨b, g1, g2⟩ := readInput_set hi
      refine ⟨b, ts, raw, whole, bytes, g1, g2, k1, k2, ?_, ?_⟩
      · intro hraw
        have hb := k3 (.inl hraw)
        subst hb
        rw [e1]
        exact convert_exec k1 hi (Faults.tokenized_real ht) hs e2
      · intro hcw t ht' hti
        rw [e1]
        exact convert_exec (dataRead_temp k1 hcw ht')
          (readInput_temp hi (fun e => hti (Option.some.inj e).symm)) (Faults.tokenized_real ht) hs e2

/-- **C85** (success of process).  If process, with an output that is not the data file, reports success,
the data is text, and the output is its processed form without at most 8192 bytes at its end (a defect, see
C78). -/
theorem C85_success_process (m : Machine) (d : Files) (data output : Text) (hne : data ≠ output)
    (left : List (Text × Bytes)) (h : Faults.Exec m d (.process data output) (.ok ()) left) :
    ∃ text z out, d.read data = some (utf8Encode text) ∧ Processing.processFile m.db text = .ok z ∧
      left = [(output, out)] ∧ AlmostAll (utf8Encode z) out := by
  generalize hr : (Except.ok () : R Unit) = r at h
  cases h with
  | early => cases hr
  | @process _ _ file out r ok h hc hf hp =>
    subst hr
    have hrd : d.read data = some file := by
      simpa [Files.write, hne] using hf
    obtain ⟨_, h'⟩ := C83_process m.db file out _ hp
    cases hv : validUtf8 file with
    | false => exact absurd rfl (C78_not_text m.db file hv out _ h')
    | true =>
      obtain ⟨text, rfl⟩ := validUtf8_iff.1 hv
      obtain ⟨z, hz⟩ := processFile_ok m.db text
      obtain ⟨lost, e1, e2⟩ := C83_process_text m.db text z hz out _ _ hp
      exact ⟨text, z, out, hrd, hz, rfl, lost, e1, (e2 rfl).2⟩

/-- **C85** (devices that do not fail).  All that a command may do on devices that do not fail is possible. -/
theorem C85_works (m : Machine) (d : Files) (cmd : Command) (ws : List (Text × Bytes))
    (h : Disk.Exec m d cmd (.ok (), ws)) : Faults.Exec m d cmd (.ok ()) ws := by
  generalize ho : (Except.ok (), ws) = o at h
  cases h with
  | processOpen => cases ho
  | @process data output file out ok h hf hp =>
    obtain ⟨e1, e2, hc⟩ := attempt_ok ho.symm
    have hk : ok = true := by
      cases ok with
      | true => rfl
      | false => cases e2
    subst hk e1
    refine .process (ok := true) h (hc _ List.mem_cons_self) hf ?_
    cases hv : validUtf8 file with
    | false =>
      obtain ⟨ls, _, _, _, _, _, h1⟩ := processBytes_bad m.db file hv
      obtain ⟨z, hz⟩ := processFile_ok m.db (ls.flatMap (· ++ ['\n']))
      have := h1 z hz
      rw [hp] at this
      cases (Prod.mk.inj (Except.ok.inj this)).2
    | true =>
      obtain ⟨text, rfl⟩ := validUtf8_iff.1 hv
      obtain ⟨z, hz⟩ := processFile_ok m.db text
      have := processBytes_text m.db text z hz
      rw [hp] at this
      rw [(Prod.mk.inj (Except.ok.inj this)).1]
      exact C83_process_works m.db text z hz
  | processPanic h hf hp =>
    obtain ⟨_, e2, _⟩ := attempt_ok ho.symm
    cases e2
  | @countChars data r order hord h =>
    obtain ⟨e1, e2⟩ := Prod.mk.inj ho
    subst e2
    rw [e1]
    cases hf : d.read data with
    | none =>
      have : openFile d data = .error .unwrapNone := by unfold openFile; rw [hf]; rfl
      rw [this] at h
      rw [← h] at e1; cases e1
    | some file =>
      refine .countChars (ok := true) order hord hf ?_
      rw [openFile_iff.2 hf, R.ok_bind] at h
      rw [← h]
      exact .run ((Reading.readLines_exists _ file le_rfl _ List.prefix_rfl).2 rfl)
  | convertOpen => cases ho
  | convertFail => cases ho
  | @convert data processed inputTokens dir v raw file f hv hr hp h =>
    obtain ⟨e1, e2, hc⟩ := attempt_ok ho.symm
    subst e1
    generalize hg : (Except.ok f : R (Text × Text)) = g at h
    cases h with
    | load => cases hg
    | process => cases hg
    | tokenize => cases hg
    | write h1 h2 h3 =>
      have hd := dataRead_iff.2 ⟨_, hr, hp _ h1, h2⟩
      exact Faults.Exec.convert (ok := true) (e := .panic)
        (Faults.readInput_of (v := some v) (by simp only [openInput, hv, R.ok_bind])
          (by simp only [readInput, h1, R.ok_bind]))
        (openFile_iff.1 hr) (Faults.prepare_of hd) (Faults.tokenized_of h3) hg.symm
        (Faults.writeFiles_all _ (List.all_eq_true.2 hc))
  | optimizeOpen => cases ho
  | optimizePrepare => cases ho
  | optimizeFail =>
    obtain ⟨_, e2, _⟩ := attempt_ok ho.symm
    cases e2
  | optimize hr hp hi hd ht hopt hs =>
    obtain ⟨e1, e2, hc⟩ := attempt_ok ho.symm
    subst e1
    exact Faults.Exec.optimize (ok := true) (e := .panic) (openFile_iff.1 hr)
      (Faults.prepare_of (dataRead_iff.2 ⟨_, hr, hp, hd⟩)) (Faults.readInput_of hi ht) (Faults.optimized_of hopt) hs
      (Faults.writeFiles_all _ (List.all_eq_true.2 hc))

theorem starts_faults {d : Files} {p : Processing} {ty : TokenType} {ntokens : Nat} {inputTokens : Option Text}
    (h : StartsGood d p ty ntokens inputTokens) {ts : Option TokenSet} (hi : Faults.ReadInput d inputTokens ts) :
    GoodInput ty p ntokens ts := by
  obtain ⟨v, h1, h2, _⟩ := Faults.readInput_real hi
  exact starts_input h h1 h2

theorem optimized_saved {m : Machine} (hm : MachineOk m) {bytes : Bytes} {ntokens : Nat} {p : Processing}
    {ty : TokenType} {rawSize : Nat} {ts : Option TokenSet} (hi : GoodInput ty p ntokens ts)
    {minSize : Option Nat} {r : Option TokenStats} {saved : List (Text × Text)}
    (h : Faults.Optimized m bytes ntokens p ty rawSize ts minSize r saved) :
    ∀ f ∈ saved, ∃ ts, ValidSet ty p ntokens ts ∧ savedFile ts = .ok f := by
  obtain ⟨h1, h2⟩ := Faults.optimized_real h
  cases r with
  | none =>
    rcases h1 rfl with e | h
    · rw [e]; simp
    · exact partOptimized_good hm hi h
  | some st => exact (optimized_good hm hi (h2 st rfl)).saved

/-- **C85** (files).  An optimize command that starts from nothing, or from a set that the optimizer can work
on, runs on devices that may fail at any moment; it ends in any way or is killed.  Then each file is as
before, or reading it is an error, or it is the complete file of a valid set of the requested type,
processing and size. -/
theorem C85_optimize_files (m : Machine) (hm : MachineOk m) (hr : RatioText m.ratio) (d : Files)
    (data : Text) (processed : Option Text) (dir : Text) (p : Processing) (ty : TokenType) (ntokens : Nat)
    (inputTokens : Option Text) (minSize : Option Nat) (hg : StartsGood d p ty ntokens inputTokens)
    (hsmall : SmallEnough m d (.optimize data processed dir p ty ntokens inputTokens minSize))
    (r : R Unit) (left : List (Text × Bytes))
    (h : Faults.Exec m d (.optimize data processed dir p ty ntokens inputTokens minSize) r left)
    (d' : Files) (hs : Stopped left d d') (path : Text) :
    AfterCrash d d' path (ValidSet ty p ntokens) := by
  cases h with
  | early => cases hs; exact .same rfl
  | optimizeFail hr' hp hi ho hw =>
    refine crash_of_written (Faults.writeFiles_stopped hw hs) ?_ path
    exact saved_written (optimized_saved hm (starts_faults hg hi) ho) dir
  | @optimize _ _ _ _ _ _ _ _ raw bytes ts st saved f left ok e hr' hp hi ho hst hw =>
    refine crash_of_written (Faults.writeFiles_stopped hw hs) ?_ path
    intro w hmem
    have hin := starts_faults hg hi
    unfold inDir at hmem
    rw [List.map_append, List.mem_append] at hmem
    rcases hmem with h1 | h1
    · exact saved_written (optimized_saved hm hin ho) dir w h1
    · rw [List.map_singleton, List.mem_singleton] at h1
      subst h1
      have hopt := (Faults.optimized_real ho).2 st rfl
      obtain ⟨k1, _⟩ := (optimized_good hm hin hopt).result _ rfl
      obtain ⟨whole, q1, ⟨lost, q2, _⟩, _⟩ := Faults.prepare_read hr' hp
      obtain ⟨h0, hsz⟩ := hsmall
      obtain ⟨s1, s2⟩ := hsz _ _ q1
      obtain ⟨samples, full, g1, g2, g3, g4, g5⟩ := optimized_stats hm hin hopt
      have hlen : bytes.length ≤ whole.length := by rw [← q2]; simp
      have hfit : Fits64 st := by
        refine g5 (fits_of (Tokens.Family.usable g3).inRange (by decide) (family_short g3) g1 g2 ?_ ?_ ?_)
        · omega
        · intro k hk
          have := Option.some.inj hk
          omega
        · omega
      exact ⟨_, k1, (written_stats hr hfit k1.regular.inRange hst).2⟩

/-- **C85** (files).  The same for convert: each file is as before, or reading it is an error, or it is the
complete file of the set that was loaded. -/
theorem C85_convert_files (m : Machine) (hm : MachineOk m) (hr : RatioText m.ratio) (d : Files)
    (data : Text) (processed : Option Text) (inputTokens dir : Text)
    (hsmall : SmallEnough m d (.convert data processed inputTokens dir))
    (r : R Unit) (left : List (Text × Bytes))
    (h : Faults.Exec m d (.convert data processed inputTokens dir) r left)
    (d' : Files) (hs : Stopped left d d') (path : Text) :
    AfterCrash d d' path (fun ts => ∃ b, d.read inputTokens = some b ∧ readTokenSet b = .ok ts) := by
  cases h with
  | early => cases hs; exact .same rfl
  | @convert _ _ _ _ raw ts bytes st f left ok e hi hr' hp ht hst hw =>
    refine crash_of_written (Faults.writeFiles_stopped hw hs) ?_ path
    intro w hmem
    unfold inDir at hmem
    rw [List.map_singleton, List.mem_singleton] at hmem
    subst hmem
    obtain ⟨b, g1, g2⟩ := readInput_set hi
    obtain ⟨whole, q1, ⟨lost, q2, _⟩, _⟩ := Faults.prepare_read hr' hp
    obtain ⟨s1, s2, K, s3, s4, s5⟩ := hsmall b ts _ _ g1 g2 q1
    obtain ⟨j, j1, j2⟩ := readJson_of g1 g2
    have hin := (fromJson_loaded j2).inRange
    have hlen : bytes.length ≤ whole.length := by rw [← q2]; simp
    cases Faults.tokenized_real ht with
    | ok hsm htok =>
      have h6 := C07_tokenize_file _ hin _ _ _ hm.threads _ htok
      have hset : st.tokenSet = ts := by
        obtain ⟨_, _, _, _, _, hsh, _, _⟩ := sync_inv hin h6
        exact hsh.tokenSet
      have hfit : Fits64 st := by
        refine fits_of hin s3 s5 h6 (N := whole.length) ?_ s4 ?_ s2
        · rw [flatten_sum, (fileSampler_facts hsm).1]; exact hlen
        · intro k hk
          have := Option.some.inj hk
          omega
      refine ⟨ts, ⟨b, g1, g2⟩, ?_⟩
      rw [← hset]
      exact (written_stats hr hfit (by rw [hset]; exact hin) hst).2

theorem optimized_where {m : Machine} {bytes : Bytes} {ntokens : Nat} {p : Processing} {ty : TokenType}
    {rawSize : Nat} {ts : Option TokenSet} {minSize : Option Nat} {r : Option TokenStats}
    {saved : List (Text × Text)} (h : Faults.Optimized m bytes ntokens p ty rawSize ts minSize r saved) :
    ∀ f ∈ saved, Named f := by
  obtain ⟨h1, h2⟩ := Faults.optimized_real h
  cases r with
  | none =>
    rcases h1 rfl with e | h
    · rw [e]; simp
    · exact partOptimized_named h
  | some st => exact optimized_named (h2 st rfl)

/-- **C85** (nothing else).  Every command, on any files and devices that may fail at any moment, ended in any
way or killed, leaves all files as they were except the ones it is meant to write. -/
theorem C85_nothing_else (m : Machine) (d : Files) (cmd : Command) (r : R Unit) (left : List (Text × Bytes))
    (h : Faults.Exec m d cmd r left) (d' : Files) (hs : Stopped left d d') (path : Text)
    (hp : ¬ MayWrite cmd path) : d'.read path = d.read path := by
  have key : ∀ w ∈ left, MayWrite cmd w.1 := by
    cases h with
    | early => simp
    | process => intro w hw; rw [List.mem_singleton] at hw; subst hw; rfl
    | countChars => simp
    | convert hi hr hp ht hst hw =>
      intro w hmem
      obtain ⟨b, h1, _⟩ := Faults.writeFiles_sub hw w hmem
      exact inDir_named (fun f hf => by rw [List.mem_singleton] at hf; subst hf; exact statsFile_named hst) (w.1, b) h1
    | optimizeFail hr hp hi ho hw =>
      intro w hmem
      obtain ⟨b, h1, _⟩ := Faults.writeFiles_sub hw w hmem
      exact inDir_named (optimized_where ho) (w.1, b) h1
    | optimize hr hp hi ho hst hw =>
      intro w hmem
      obtain ⟨b, h1, _⟩ := Faults.writeFiles_sub hw w hmem
      refine inDir_named ?_ (w.1, b) h1
      intro f hf
      rcases List.mem_append.1 hf with h2 | h2
      · exact optimized_named ((Faults.optimized_real ho).2 _ rfl) f h2
      · rw [List.mem_singleton] at h2; subst h2; exact statsFile_named hst
  rcases stopped_read hs path with h1 | ⟨b, part, rest, h1, _⟩
  · exact h1
  · exact absurd (key _ h1) hp

theorem writeFiles_torn {d : Files} {path : Text} {part rest : Bytes} (hr : rest ≠ []) (suf : List (Text × Bytes)) :
    ∀ (pre : List (Text × Bytes)),
      (pre ++ (path, part ++ rest) :: suf).all (fun w => d.creatable w.1) = true →
      Faults.WriteFiles d (pre ++ (path, part ++ rest) :: suf) (pre ++ [(path, part)]) false
  | [], _ => .fail (C78_files_torn part rest hr)
  | (q, b) :: pre, h => by
    simp only [List.cons_append, List.all_cons, Bool.and_eq_true] at h
    exact .ok h.1 (.ok (Writing.putAll_all b)) (writeFiles_torn hr suf pre h.2)

/-- **C85** (any moment).  Failures may come at any moment: whatever files convert or optimize may write on
devices that do not fail, it may also fail after some of them, with any beginning of the next one in the
file. -/
theorem C85_any_moment (m : Machine) (d : Files) (cmd : Command)
    (hcmd : (∃ data processed inputTokens dir, cmd = .convert data processed inputTokens dir) ∨
      ∃ data processed dir p ty ntokens inputTokens minSize,
        cmd = .optimize data processed dir p ty ntokens inputTokens minSize)
    (before after : List (Text × Bytes)) (path : Text) (part rest : Bytes) (hr : rest ≠ [])
    (h : Disk.Exec m d cmd (.ok (), before ++ (path, part ++ rest) :: after)) :
    ∃ e, Faults.Exec m d cmd (.error e) (before ++ [(path, part)]) := by
  have key : Faults.Exec m d cmd (.ok ()) (before ++ (path, part ++ rest) :: after) := C85_works _ _ _ _ h
  generalize hres : (Except.ok () : R Unit) = r at key
  generalize hws : before ++ (path, part ++ rest) :: after = ws at key
  cases key with
  | early => cases hres
  | process => rcases hcmd with ⟨_, _, _, _, e⟩ | ⟨_, _, _, _, _, _, _, _, e⟩ <;> cases e
  | countChars => rcases hcmd with ⟨_, _, _, _, e⟩ | ⟨_, _, _, _, _, _, _, _, e⟩ <;> cases e
  | @convert _ _ _ _ _ _ _ _ _ left ok e hi hr' hp ht hst hw =>
    cases ok with
    | false => cases hres
    | true =>
      obtain ⟨e1, e2⟩ := Faults.writeFiles_ok hw
      rw [← e1, ← hws] at e2
      have := writeFiles_torn hr after before e2
      rw [hws, e1] at this
      exact ⟨e, .convert (ok := false) hi hr' hp ht hst this⟩
  | optimizeFail => cases hres
  | @optimize _ _ _ _ _ _ _ _ _ _ _ _ _ _ left ok e hr' hp hi ho hst hw =>
    cases ok with
    | false => cases hres
    | true =>
      obtain ⟨e1, e2⟩ := Faults.writeFiles_ok hw
      rw [← e1, ← hws] at e2
      have := writeFiles_torn hr after before e2
      rw [hws, e1] at this
      exact ⟨e, .optimize (ok := false) hr' hp hi ho hst this⟩

theorem render_start {ratio : Nat → Nat → Json} {st : TokenStats} {v : Json} (h : st.toJson ratio = .ok v) :
    ∃ b, utf8Encode v.render = 123 :: b ∧ b ≠ [] := by
  have hv : ∃ x l, v = .obj (x :: l) := by
    unfold TokenStats.toJson at h
    cases ht : st.tokenSet.toJson with
    | error e => rw [ht] at h; cases h
    | ok w =>
      rw [ht, R.ok_bind] at h
      obtain ⟨l, rfl⟩ : ∃ l, w = .obj l := by
        cases w with
        | obj l => exact ⟨l, rfl⟩
        | _ => cases h
      have e := Except.ok.inj h
      obtain ⟨x, l', hl⟩ := List.exists_cons_of_ne_nil
        (l := l.takeWhile (fun kv => kv.1 != "tokens".toList) ++ _ :: l.dropWhile (fun kv => kv.1 != "tokens".toList))
        (List.append_ne_nil_of_right_ne_nil _ (List.cons_ne_nil _ _))
      exact ⟨x, l', by rw [← e]; exact congrArg Json.obj hl⟩
  obtain ⟨⟨k, j⟩, l, rfl⟩ := hv
  have hq : (Json.obj ((k, j) :: l)).render = '{' :: '"' :: (k.flatMap Json.escapeChar ++ ['"'] ++
      (':' :: (j.render ++ Json.renderObj false l))) := by
    simp [Json.render, Json.renderObj, Json.renderStr]
  rw [hq]
  have h1 : ∀ c t, utf8Encode (c :: t) = utf8Encode [c] ++ utf8Encode t := fun c t => by
    rw [← utf8Encode_append]; rfl
  rw [h1, h1 '"']
  have hb : utf8Encode ['{'] = [123] := by decide
  have hc : utf8Encode ['"'] = [34] := by decide
  rw [hb, hc]
  exact ⟨_, rfl, by simp⟩

-- the hypotheses are met: a run that succeeds, and one that fails in the middle of the last file, of which
-- the first byte is left
example : ∃ ws path b, Faults.Exec aMachine someFiles
      (.optimize "data".toList none "dir".toList .raw .bytes 300 none none) (.ok ()) (ws ++ [(path, 123 :: b)]) ∧
    DataGiven someFiles (.optimize "data".toList none "dir".toList .raw .bytes 300 none none) ∧
    StartsGood someFiles .raw .bytes 300 none ∧
    SmallEnough aMachine someFiles (.optimize "data".toList none "dir".toList .raw .bytes 300 none none) ∧
    ∃ e, Faults.Exec aMachine someFiles
      (.optimize "data".toList none "dir".toList .raw .bytes 300 none none) (.error e) (ws ++ [(path, [123])]) := by
  have hg := someFiles_start .raw .bytes 300 (by show 256 ≤ 300; decide)
  obtain ⟨⟨o, ho⟩, hall⟩ := C59_optimize_succeeds aMachine aMachine_ok someFiles "data".toList none
    "dir".toList .raw .bytes 300 none hg [97, 98, 10] [97, 98, 10] (.raw rfl) (fun _ h => by cases h)
    (by decide) (fun _ _ => rfl)
  have h := hall o ho
  obtain ⟨r, ws⟩ := o
  have h' : r = .ok () := h
  subst h'
  have hw : ∃ ws' path b, ws = ws' ++ [(path, 123 :: b)] ∧ b ≠ [] := by
    generalize hh : (Except.ok (), ws) = o at ho
    cases ho with
    | optimizeOpen => cases hh
    | optimizePrepare => cases hh
    | optimizeFail =>
      obtain ⟨_, e, _⟩ := attempt_ok hh.symm
      cases e
    | @optimize _ _ _ _ _ _ _ _ raw file v bytes ts st saved f _ _ _ _ _ _ hst =>
      obtain ⟨e, _, _⟩ := attempt_ok hh.symm
      have hf : ∃ b, utf8Encode f.2 = 123 :: b ∧ b ≠ [] := by
        unfold statsFile at hst
        cases hv : st.toJson aMachine.ratio with
        | error e => rw [hv] at hst; cases hst
        | ok v =>
          rw [hv] at hst
          have := Except.ok.inj hst
          subst this
          exact render_start hv
      obtain ⟨b, hb, hne⟩ := hf
      refine ⟨inDir "dir".toList saved, joinPath "dir".toList f.1, b, ?_, hne⟩
      rw [e, ← hb]
      simp [inDir]
  obtain ⟨ws', path, b, rfl, hb⟩ := hw
  exact ⟨ws', path, b, C85_works _ _ _ _ ho, .inl rfl, hg, someFiles_small _ _ _ (by decide) _,
    C85_any_moment aMachine someFiles _ (.inr ⟨_, _, _, _, _, _, _, _, rfl⟩) ws' [] path [123] b hb ho⟩

end Tokens.Props
