import Verif.Props.Convert
import Verif.Props.Resume

/-!
# Property C124: processing the data beforehand

`convert` and `optimize` process the data themselves unless they are given a file with processed data
(`--processed-data`), which is what the process command writes.  `Exec` is the model of the commands on
files, `Running` what may be on the disk while they are at work.
-/

namespace Tokens.Props
open Tokens Spec TokenSet Optimize Batch Main Input Disk

set_option linter.unusedVariables false

/-! ### Proofs -/

/-- What a successful process command has read and written. -/
theorem process_done {m : Machine} {d : Files} {data output : Text} (hne : output ≠ data)
    {ws : List (Text × Bytes)} (h : Exec m d (.process data output) (.ok (), ws)) :
    ∃ raw out, d.read data = some raw ∧ processBytes m.db raw = .ok (out, true) ∧ ws = [(output, out)] := by
  generalize ho : ((.ok (), ws) : R Unit × List (Text × Bytes)) = o at h
  cases h with
  | processOpen h => cases ho
  | @process _ _ file out ok h hf hp =>
    obtain ⟨e, k, _⟩ := attempt_ok ho.symm
    have hread : d.read data = some file := by
      simp only [Files.write] at hf
      rwa [if_neg (fun e => hne e.symm)] at hf
    cases ok with
    | false => cases k
    | true => exact ⟨file, out, hread, hp, e⟩
  | processPanic h hf hp =>
    obtain ⟨_, k, _⟩ := attempt_ok ho.symm
    cases k

theorem maybe_made {m : Machine} {raw out : Bytes} (h : processBytes m.db raw = .ok (out, true)) :
    maybeProcessFile m raw none .capsWords = .ok out := by
  show (processBytes m.db raw >>= fun x => if x.2 then (Except.ok x.1 : R Bytes) else .error .unwrapNone) = _
  rw [h]; rfl

/-- With and without the processed file, the data that is used is the same. -/
structure SameFiles (m : Machine) (d d' : Files) (data output : Text) : Prop where
  unchanged : d'.read data = d.read data
  creatable : d'.creatable = d.creatable
  made : ∃ raw out, d.read data = some raw ∧ maybeProcessFile m raw none .capsWords = .ok out ∧
    d'.read output = some out

theorem sameFiles_of {m : Machine} {d : Files} {data output : Text} (hne : output ≠ data)
    {ws : List (Text × Bytes)} (h : Exec m d (.process data output) (.ok (), ws)) :
    SameFiles m d (writeAll d ws) data output ∧ ∀ q, q ≠ output → (writeAll d ws).read q = d.read q := by
  obtain ⟨raw, out, h1, h2, rfl⟩ := process_done hne h
  have hother : ∀ q, q ≠ output → (writeAll d [(output, out)]).read q = d.read q := fun q hq =>
    writeAll_other _ d q (by simpa using hq.symm)
  exact ⟨⟨hother _ hne.symm, writeAll_creatable _ d,
    ⟨raw, out, h1, maybe_made h2, writeAll_last [] d output out⟩⟩, hother⟩

theorem SameFiles.openData {m : Machine} {d d' : Files} {data output : Text} (h : SameFiles m d d' data output)
    {raw : Bytes} : openFile d' data = .ok raw ↔ openFile d data = .ok raw := by
  rw [openFile_congr h.unchanged]

theorem openProcessed_none (d : Files) (p : Processing) : openProcessed d none p = .ok none := by
  cases p <;> rfl

/-- What is opened as processed file. -/
def usedFile (out : Bytes) : Processing → Option Bytes
  | .raw => none
  | .capsWords => some out

theorem openProcessed_used {d : Files} {output : Text} {out : Bytes} (h : d.read output = some out)
    (p : Processing) : openProcessed d (some output) p = .ok (usedFile out p) := by
  cases p with
  | raw => rfl
  | capsWords => simp only [openProcessed, openFile, h, usedFile]; rfl

theorem maybe_used {m : Machine} {raw out : Bytes} (h : maybeProcessFile m raw none .capsWords = .ok out)
    (p : Processing) : maybeProcessFile m raw (usedFile out p) p = maybeProcessFile m raw none p := by
  cases p with
  | raw => rfl
  | capsWords => rw [h]; rfl

theorem convertCommand_used {m : Machine} {raw : Bytes} {file file' : Option Bytes} {v : Json}
    (h : ∀ ts, fromJson v = .ok ts →
      maybeProcessFile m raw file ts.processing = maybeProcessFile m raw file' ts.processing)
    {r : R (Text × Text)} (hc : ConvertCommand m raw file v r) : ConvertCommand m raw file' v r := by
  cases hc with
  | load h1 => exact .load h1
  | process h1 h2 => exact .process h1 (h _ h1 ▸ h2)
  | tokenize h1 h2 h3 => exact .tokenize h1 (h _ h1 ▸ h2) h3
  | write h1 h2 h3 => exact .write h1 (h _ h1 ▸ h2) h3

theorem readJson_congr {d d' : Files} {f : Text} (h : d'.read f = d.read f) : readJson d' f = readJson d f := by
  unfold readJson; rw [openFile_congr h]

theorem openInput_congr {d d' : Files} {i : Option Text} (h : ∀ f, i = some f → d'.read f = d.read f) :
    openInput d' i = openInput d i := by
  cases i with
  | none => rfl
  | some f => simp only [openInput, readJson_congr (h f rfl)]

theorem usedFor_loaded {d : Files} {v : Json} (out : Bytes) {output : Text} (h : d.read output = some out) :
    ∃ file, ∀ ts, fromJson v = .ok ts → openProcessed d (some output) ts.processing = .ok file ∧
      file = usedFile out ts.processing := by
  cases e : fromJson v with
  | error e => exact ⟨none, fun ts h => by cases h⟩
  | ok ts =>
    refine ⟨usedFile out ts.processing, fun ts' h' => ?_⟩
    have := Except.ok.inj h'
    subst this
    exact ⟨openProcessed_used h _, rfl⟩

theorem exec_given_convert {m : Machine} {d d' : Files} {data output : Text} (hs : SameFiles m d d' data output)
    {f dir : Text} (hf : d'.read f = d.read f) (o : R Unit × List (Text × Bytes)) :
    Exec m d' (.convert data (some output) f dir) o ↔ Exec m d (.convert data none f dir) o := by
  obtain ⟨raw, out, hr, hm, ho⟩ := hs.made
  have hop : openFile d data = .ok raw := by simp only [openFile, hr]; rfl
  have hop' : openFile d' data = .ok raw := hs.openData.2 hop
  constructor
  · intro h
    cases h with
    | convertOpen h =>
      rcases h with h | h | ⟨v, ts, h1, h2, h3⟩
      · exact .convertOpen (.inl (readJson_congr hf ▸ h))
      · rw [hop'] at h; cases h
      · rw [openProcessed_used ho] at h3; cases h3
    | @convertFail _ _ _ _ v raw' file e hv hr' hp h =>
      have := Except.ok.inj (hop'.symm.trans hr')
      subst this
      refine .convertFail (readJson_congr hf ▸ hv) hop (fun ts _ => openProcessed_none d _)
        (convertCommand_used (fun ts hts => ?_) h)
      have := Except.ok.inj ((openProcessed_used ho ts.processing).symm.trans (hp ts hts))
      rw [← this, maybe_used hm]
    | @convert _ _ _ _ v raw' file g hv hr' hp h =>
      have := Except.ok.inj (hop'.symm.trans hr')
      subst this
      rw [attempt_congr hs.creatable]
      refine .convert (readJson_congr hf ▸ hv) hop (fun ts _ => openProcessed_none d _)
        (convertCommand_used (fun ts hts => ?_) h)
      have := Except.ok.inj ((openProcessed_used ho ts.processing).symm.trans (hp ts hts))
      rw [← this, maybe_used hm]
  · intro h
    cases h with
    | convertOpen h =>
      rcases h with h | h | ⟨v, ts, h1, h2, h3⟩
      · exact .convertOpen (.inl ((readJson_congr hf).symm ▸ h))
      · rw [hop] at h; cases h
      · rw [openProcessed_none] at h3; cases h3
    | @convertFail _ _ _ _ v raw' file e hv hr' hp h =>
      have := Except.ok.inj (hop.symm.trans hr')
      subst this
      obtain ⟨file', hfile⟩ := usedFor_loaded (v := v) out ho
      refine .convertFail ((readJson_congr hf).trans hv) hop' (fun ts h => (hfile ts h).1)
        (convertCommand_used (fun ts hts => ?_) h)
      have := Except.ok.inj ((openProcessed_none d ts.processing).symm.trans (hp ts hts))
      rw [← this, (hfile ts hts).2, maybe_used hm]
    | @convert _ _ _ _ v raw' file g hv hr' hp h =>
      have := Except.ok.inj (hop.symm.trans hr')
      subst this
      obtain ⟨file', hfile⟩ := usedFor_loaded (v := v) out ho
      rw [← attempt_congr hs.creatable]
      refine .convert ((readJson_congr hf).trans hv) hop' (fun ts h => (hfile ts h).1)
        (convertCommand_used (fun ts hts => ?_) h)
      have := Except.ok.inj ((openProcessed_none d ts.processing).symm.trans (hp ts hts))
      rw [← this, (hfile ts hts).2, maybe_used hm]

/-- The commands differ in where the processed data comes from only. -/
structure SameStart (m : Machine) (d d' : Files) (data : Text) (processed processed' : Option Text)
    (p : Processing) (i : Option Text) : Prop where
  creatable : d.creatable = d'.creatable
  opened : openFile d data = openFile d' data
  ok : ∃ file file', openProcessed d processed p = .ok file ∧ openProcessed d' processed' p = .ok file' ∧
    ∀ raw, openFile d data = .ok raw → maybeProcessFile m raw file p = maybeProcessFile m raw file' p
  input : openInput d i = openInput d' i

theorem SameStart.symm {m : Machine} {d d' : Files} {data : Text} {processed processed' : Option Text}
    {p : Processing} {i : Option Text} (h : SameStart m d d' data processed processed' p i) :
    SameStart m d' d data processed' processed p i where
  creatable := h.creatable.symm
  opened := h.opened.symm
  ok := by
    obtain ⟨a, b, h1, h2, h3⟩ := h.ok
    exact ⟨b, a, h2, h1, fun raw hr => (h3 raw (h.opened.trans hr)).symm⟩
  input := h.input.symm

theorem SameStart.exec {m : Machine} {d d' : Files} {data dir : Text} {processed processed' : Option Text}
    {p : Processing} {ty : TokenType} {n : Nat} {i : Option Text} {mn : Option Nat}
    (hs : SameStart m d d' data processed processed' p i) {o : R Unit × List (Text × Bytes)}
    (h : Exec m d (.optimize data processed dir p ty n i mn) o) :
    Exec m d' (.optimize data processed' dir p ty n i mn) o := by
  obtain ⟨a, b, h1, h2, h3⟩ := hs.ok
  cases h with
  | optimizeOpen h =>
    refine .optimizeOpen ?_
    rcases h with h | h | h
    · exact .inl (hs.opened ▸ h)
    · rw [h1] at h; cases h
    · exact .inr (.inr (hs.input ▸ h))
  | optimizePrepare hr hp hi h =>
    have := Except.ok.inj (h1.symm.trans hp)
    subst this
    exact .optimizePrepare (hs.opened ▸ hr) h2 (hs.input ▸ hi) (h3 _ hr ▸ h)
  | optimizeFail hr hp hi hd ht ho h =>
    have := Except.ok.inj (h1.symm.trans hp)
    subst this
    rw [attempt_congr hs.creatable]
    exact .optimizeFail (hs.opened ▸ hr) h2 (hs.input ▸ hi) (h3 _ hr ▸ hd) ht ho h
  | optimize hr hp hi hd ht ho h =>
    have := Except.ok.inj (h1.symm.trans hp)
    subst this
    rw [attempt_congr hs.creatable]
    exact .optimize (hs.opened ▸ hr) h2 (hs.input ▸ hi) (h3 _ hr ▸ hd) ht ho h

theorem SameStart.running {m : Machine} {d d' : Files} {data dir : Text} {processed processed' : Option Text}
    {p : Processing} {ty : TokenType} {n : Nat} {i : Option Text} {mn : Option Nat}
    (hs : SameStart m d d' data processed processed' p i) {ws : List (Text × Bytes)}
    (h : Running m d (.optimize data processed dir p ty n i mn) ws) :
    Running m d' (.optimize data processed' dir p ty n i mn) ws := by
  obtain ⟨a, b, h1, h2, h3⟩ := hs.ok
  cases h with
  | nothing => exact .nothing
  | optimize hr hp hi hd ht ho =>
    have := Except.ok.inj (h1.symm.trans hp)
    subst this
    rw [attempt_congr hs.creatable]
    exact .optimize (hs.opened ▸ hr) h2 (hs.input ▸ hi) (h3 _ hr ▸ hd) ht ho
  | ended h => exact .ended (hs.exec h)

theorem sameStart_of {m : Machine} {d d' : Files} {data output : Text} (hs : SameFiles m d d' data output)
    (p : Processing) {i : Option Text} (hi : ∀ f, i = some f → d'.read f = d.read f) :
    SameStart m d' d data (some output) none p i where
  creatable := hs.creatable
  opened := openFile_congr hs.unchanged
  ok := by
    obtain ⟨raw, out, hr, hm, ho⟩ := hs.made
    refine ⟨_, _, openProcessed_used ho p, openProcessed_none d p, fun raw' hr' => ?_⟩
    have hop' : openFile d data = .ok raw := by simp only [openFile, hr]; rfl
    have := Except.ok.inj ((hs.openData.2 hop').symm.trans hr')
    subst this
    exact maybe_used hm p
  input := openInput_congr hi

/-! ## C124 -/

/-- **C124**.  After a process command that succeeded, convert with its output as processed data has exactly
the outcomes (and writes exactly the bytes) that convert had before, without processed data: for every
token set, whatever its processing. -/
theorem C124_convert (m : Machine) (d : Files) (data output : Text) (ws : List (Text × Bytes))
    (h : Exec m d (.process data output) (.ok (), ws)) (hne : output ≠ data)
    (inputTokens dir : Text) (hi : inputTokens ≠ output) (o : R Unit × List (Text × Bytes)) :
    Exec m (writeAll d ws) (.convert data (some output) inputTokens dir) o ↔
      Exec m d (.convert data none inputTokens dir) o := by
  obtain ⟨h1, h2⟩ := sameFiles_of hne h
  exact exec_given_convert h1 (h2 _ hi) o

/-- **C124**.  The same for optimize, with any options, -/
theorem C124_optimize (m : Machine) (d : Files) (data output : Text) (ws : List (Text × Bytes))
    (h : Exec m d (.process data output) (.ok (), ws)) (hne : output ≠ data)
    (dir : Text) (p : Processing) (ty : TokenType) (ntokens : Nat) (inputTokens : Option Text)
    (hi : inputTokens ≠ some output) (minSize : Option Nat) (o : R Unit × List (Text × Bytes)) :
    Exec m (writeAll d ws) (.optimize data (some output) dir p ty ntokens inputTokens minSize) o ↔
      Exec m d (.optimize data none dir p ty ntokens inputTokens minSize) o := by
  obtain ⟨h1, h2⟩ := sameFiles_of hne h
  have hs := sameStart_of h1 p (i := inputTokens) (fun f hf => h2 f (by rintro rfl; exact hi hf))
  exact ⟨hs.exec, hs.symm.exec⟩

/-- **C124**.  ... and for what it may have written while it is at work. -/
theorem C124_running (m : Machine) (d : Files) (data output : Text) (ws : List (Text × Bytes))
    (h : Exec m d (.process data output) (.ok (), ws)) (hne : output ≠ data)
    (dir : Text) (p : Processing) (ty : TokenType) (ntokens : Nat) (inputTokens : Option Text)
    (hi : inputTokens ≠ some output) (minSize : Option Nat) (ws' : List (Text × Bytes)) :
    Running m (writeAll d ws) (.optimize data (some output) dir p ty ntokens inputTokens minSize) ws' ↔
      Running m d (.optimize data none dir p ty ntokens inputTokens minSize) ws' := by
  obtain ⟨h1, h2⟩ := sameFiles_of hne h
  have hs := sameStart_of h1 p (i := inputTokens) (fun f hf => h2 f (by rintro rfl; exact hi hf))
  exact ⟨hs.running, hs.symm.running⟩

/-- **C124** (data that is not UTF-8).  Without processed data optimizing it with processing fails, and
writes nothing. -/
theorem C124_not_text (m : Machine) (d : Files) (data : Text) (file : Bytes) (hdata : d.read data = some file)
    (hv : validUtf8 file = false) (dir : Text) (ty : TokenType) (ntokens : Nat) (inputTokens : Option Text)
    (minSize : Option Nat) (o : R Unit × List (Text × Bytes))
    (h : Exec m d (.optimize data none dir .capsWords ty ntokens inputTokens minSize) o) :
    (∃ e, o.1 = .error e) ∧ o.2 = [] := by
  have key : ∀ {raw bytes file}, openFile d data = .ok raw → openProcessed d none .capsWords = .ok file →
      maybeProcessFile m raw file .capsWords = .ok bytes → False := by
    intro raw bytes f hr hp hd
    have := dataRead_iff.2 ⟨f, hr, hp, hd⟩
    cases this with
    | given h1 h2 => cases h2
    | made h1 _ _ =>
      have := Option.some.inj (hdata.symm.trans h1)
      subst this
      rw [validUtf8_iff.2 ⟨_, rfl⟩] at hv
      cases hv
  cases h with
  | optimizeOpen h => exact ⟨⟨_, rfl⟩, rfl⟩
  | optimizePrepare hr hp hi h => exact ⟨⟨_, rfl⟩, rfl⟩
  | optimizeFail hr hp hi hd ht ho h => exact (key hr hp hd).elim
  | optimize hr hp hi hd ht ho h => exact (key hr hp hd).elim

/-- **C124** (a deviation).  The process command fails on such data too, but leaves a file with the lines
before the first that is not valid; with that file as processed data optimizing succeeds, whatever is
missing from it. -/
theorem C124_left_over (m : Machine) (hm : MachineOk m) (d : Files) (data output : Text) (file : Bytes)
    (hdata : d.read data = some file) (hv : validUtf8 file = false) (hne : output ≠ data)
    (hc : d.creatable output = true) (hsize : file.length < 2 ^ 34) (dir : Text) (ty : TokenType)
    (ntokens : Nat) (hg : GoodInput ty .capsWords ntokens none)
    (hcd : ∀ n ≤ ntokens, d.creatable (fileIn dir (tokenFile n .capsWords ty)) = true) :
    ∃ ws, (∀ o, Exec m d (.process data output) o ↔ o = (.error .unwrapNone, ws)) ∧
      (∃ o, Exec m (writeAll d ws) (.optimize data (some output) dir .capsWords ty ntokens none none) o) ∧
      ∀ o, Exec m (writeAll d ws) (.optimize data (some output) dir .capsWords ty ntokens none none) o →
        o.1 = .ok () := by
  obtain ⟨before, line, after, out, _, _, _, _, _, _, h7⟩ := C60_process_invalid m d data output file hdata hv hne hc
  refine ⟨_, h7, ?_⟩
  have hcr : (writeAll d [(output, utf8Encode out)]).creatable = d.creatable := writeAll_creatable _ d
  refine C59_optimize_succeeds m hm _ data (some output) dir .capsWords ty ntokens none hg file (utf8Encode out)
    (.given ?_ rfl (writeAll_last [] d output _)) (fun f hf => by cases hf) hsize (fun n hn => ?_)
  · rw [← hdata]
    exact writeAll_other _ d data (by simpa using hne)
  · rw [hcr]; exact hcd n hn

/-! ### Examples -/

-- the files above: the data is text; process succeeds, and then optimizing with its output succeeds, with
-- exactly the outcomes of optimizing without it
example : ∃ ws ws', Exec aMachine someFiles (.process "data".toList "out".toList) (.ok (), ws) ∧
    Exec aMachine (writeAll someFiles ws)
      (.optimize "data".toList (some "out".toList) "dir".toList .capsWords .bytes 300 none none) (.ok (), ws') ∧
    Exec aMachine someFiles (.optimize "data".toList none "dir".toList .capsWords .bytes 300 none none)
      (.ok (), ws') := by
  obtain ⟨out, h1, h2, _⟩ := C60_process aMachine (by rfl) someFiles "data".toList "out".toList
    ['a', 'b', '\n'] (by rfl) (by decide) rfl
  have h3 := (h2 _).2 rfl
  obtain ⟨raw, o', e1, e2, e3⟩ := process_done (by decide) h3
  have hw := writeAll_last [] someFiles "out".toList (utf8Encode out)
  obtain ⟨⟨o, ho⟩, hall⟩ := C59_optimize_succeeds aMachine aMachine_ok
    (writeAll someFiles [("out".toList, utf8Encode out)]) "data".toList (some "out".toList)
    "dir".toList .capsWords .bytes 300 none (by show 256 ≤ 300; decide) [97, 98, 10] (utf8Encode out)
    (.given rfl rfl hw) (fun _ h => by cases h) (by decide) (fun _ _ => rfl)
  have h := hall o ho
  obtain ⟨r, ws⟩ := o
  have h' : r = .ok () := h
  subst h'
  exact ⟨_, ws, h3, ho, (C124_optimize aMachine someFiles _ _ _ h3 (by decide) _ _ _ _ _ (by simp) _ _).1 ho⟩

/-- A data file that is not UTF-8: two good bytes, a newline, and a bad byte. -/
def badFiles : Files := ⟨fun p => if p = "data".toList then some [97, 98, 10, 255] else none, fun _ => true⟩

-- process fails, and optimizing what it left succeeds
example : ∃ ws ws', Exec aMachine badFiles (.process "data".toList "out".toList) (.error .unwrapNone, ws) ∧
    Exec aMachine (writeAll badFiles ws)
      (.optimize "data".toList (some "out".toList) "dir".toList .capsWords .bytes 300 none none) (.ok (), ws') := by
  obtain ⟨ws, h1, ⟨o, h2⟩, h3⟩ := C124_left_over aMachine aMachine_ok badFiles "data".toList "out".toList
    [97, 98, 10, 255] rfl (by rfl) (by decide) rfl (by decide) "dir".toList .bytes 300
    (by show 256 ≤ 300; decide) (fun _ _ => rfl)
  have h := h3 o h2
  obtain ⟨r, ws'⟩ := o
  have h' : r = .ok () := h
  subst h'
  exact ⟨ws, ws', (h1 _).2 rfl, h2⟩

end Tokens.Props
