import Verif.Proofs.Disk
import Verif.Proofs.Fits
import Verif.Proofs.Load

/-!
# Properties C57 - C61: the commands and the files

Read together with `Verif/Spec/Disk.lean` and `Verif/Spec/Loaded.lean`.  `Exec m d cmd (r, ws)`
(`Verif/Model/Disk.lean`): the command `cmd`, started on the files `d`, may end with the result `r`
after writing the files `ws`, in this order.  `Stopped ws d d'`: if it is stopped at some point of these
writes, it may leave the files `d'`.
-/

namespace Tokens.Props
open Tokens Spec TokenSet Optimize Batch Main Input Disk

set_option linter.unusedVariables false

/-! ## C61 what is loaded -/

/-- **C61**.  Whatever JSON value a file holds: a token set is loaded from it if and only if the value
stands for this set (`LoadedFrom`): the set has exactly the tokens, type, processing, paragraph flag and
sequences listed there. -/
theorem C61_loaded (v : Json) (ts : TokenSet) : fromJson v = .ok ts ↔ LoadedFrom v ts :=
  fromJson_iff

/-- **C61**.  The sequences of a set that was loaded use existing tokens only. -/
theorem C61_in_range (v : Json) (ts : TokenSet) (h : fromJson v = .ok ts) : SeqsInRange ts :=
  (fromJson_loaded h).inRange

/-- **C61**.  So a set that was loaded can be sorted and saved: neither panics. -/
theorem C61_loaded_usable (v : Json) (ts : TokenSet) (h : fromJson v = .ok ts) :
    (∃ ts', ts.sort = .ok ts') ∧ ∃ w, ts.toJson = .ok w := by
  have hr := (fromJson_loaded h).inRange
  exact ⟨(sort_ok_iff ts).2 hr, _, toJson_eq ts hr⟩

/-- A file with one string, one array, one number out of range, and one ext token with number 7. -/
def oddFile : Json := .obj [
  ("processing".toList, .str "raw".toList),
  ("tokens".toList, .arr [.str "ab".toList, .num 7, .arr [.num 353, .num (-1)]]),
  ("type".toList, .str "byteshuff".toList)]

-- it is loaded; the ext token gets number 0, and 353 and -1 are taken modulo 256
example : fromJson oddFile = .ok ⟨1, .bytesHuff, .raw, false, [.ext 0, .str [97, 98], .str [97, 255]], []⟩ :=
  rfl

/-! ## C57 killed at any point -/

theorem saved_written {ty : TokenType} {p : Processing} {ntokens : Nat} {saved : List (Text × Text)}
    (h : ∀ f ∈ saved, ∃ ts, ValidSet ty p ntokens ts ∧ savedFile ts = .ok f) (dir : Text) :
    ∀ w ∈ inDir dir saved, ∃ ts, ValidSet ty p ntokens ts ∧ Written ts w.2 := by
  intro w hw
  obtain ⟨f, hf, rfl⟩ := List.mem_map.1 hw
  obtain ⟨ts, h1, h2⟩ := h f hf
  exact ⟨ts, h1, (written_saved h1.regular.inRange h2).2⟩

/-- **C57**.  An optimize command that starts from nothing, or from a set that the optimizer can work
on, is killed at any point, of any run, or ends in any way.  Then each file is as before, or reading it
is an error, or it is the complete file of a valid set of the requested type, processing and size. -/
theorem C57_optimize_killed (m : Machine) (hm : MachineOk m) (hr : RatioText m.ratio) (d : Files)
    (data : Text) (processed : Option Text) (dir : Text) (p : Processing) (ty : TokenType) (ntokens : Nat)
    (inputTokens : Option Text) (minSize : Option Nat) (hg : StartsGood d p ty ntokens inputTokens)
    (hsmall : SmallEnough m d (.optimize data processed dir p ty ntokens inputTokens minSize))
    (r : R Unit) (ws : List (Text × Bytes))
    (h : Exec m d (.optimize data processed dir p ty ntokens inputTokens minSize) (r, ws))
    (d' : Files) (hs : Stopped ws d d') (path : Text) :
    AfterCrash d d' path (ValidSet ty p ntokens) := by
  have hfit := saves_fit_optimize hm hg hsmall
  refine crash_of_written hs ?_ path
  generalize ho : (r, ws) = o at h
  have sub : ∀ {ws' : List (Text × Bytes)} {r' : R Unit}, (r, ws) = attempt d ws' r' → ∀ w ∈ ws, w ∈ ws' :=
    fun e w hw => attempt_sub e.symm w hw
  cases h with
  | optimizeOpen h => rw [Prod.mk.injEq] at ho; rw [ho.2]; simp
  | optimizePrepare hr hp hi h => rw [Prod.mk.injEq] at ho; rw [ho.2]; simp
  | optimizeFail hr' hp hi hd ht hopt h =>
    intro w hw
    exact saved_written (optimized_good hm (starts_input hg hi ht) hopt).saved dir w (sub ho w hw)
  | optimize hr' hp hi hd ht hopt h =>
    intro w hw
    have hout := optimized_good hm (starts_input hg hi ht) hopt
    have := sub ho w hw
    unfold inDir at this
    rw [List.map_append, List.mem_append] at this
    rcases this with h1 | h1
    · exact saved_written hout.saved dir w h1
    · rw [List.map_singleton, List.mem_singleton] at h1
      subst h1
      obtain ⟨k1, k2⟩ := hout.result _ rfl
      exact ⟨_, k1, (written_stats hr (hfit _ (.optimize hr' hp hi hd ht hopt)) k1.regular.inRange h).2⟩

theorem converted {m : Machine} (hm : MachineOk m) {d : Files} {data : Text} {processed : Option Text}
    {inputTokens dir : Text} {v : Json} {raw : Bytes} {file : Option Bytes} {f : Text × Text}
    (hv : readJson d inputTokens = .ok v) (hr : openFile d data = .ok raw)
    (hp : ∀ ts, fromJson v = .ok ts → openProcessed d processed ts.processing = .ok file)
    (h : ConvertCommand m raw file v (.ok f)) :
    ∃ ts st, fromJson v = .ok ts ∧ st.tokenSet = ts ∧ statsFile m st = .ok f ∧
      Saves m d (.convert data processed inputTokens dir) st := by
  generalize hg : (Except.ok f : R (Text × Text)) = g at h
  cases h with
  | load => cases hg
  | process => cases hg
  | tokenize => cases hg
  | write h1 h2 h3 =>
    refine ⟨_, _, h1, ?_, rfl, .convert hv hr h1 (hp _ h1) h2 h3⟩
    have hin := (fromJson_loaded h1).inRange
    cases h3 with
    | ok hs ht =>
      have h3 := C07_tokenize_file _ hin _ _ _ hm.threads _ ht
      obtain ⟨_, _, _, _, _, hsh, _, _⟩ := sync_inv hin h3
      exact hsh.tokenSet

/-- **C57**.  A convert command is killed at any point, or ends in any way.  Then each file is as before,
or reading it is an error, or it is the complete file of the set that was loaded. -/
theorem C57_convert_killed (m : Machine) (hm : MachineOk m) (hr : RatioText m.ratio) (d : Files)
    (data : Text) (processed : Option Text) (inputTokens dir : Text)
    (hsmall : SmallEnough m d (.convert data processed inputTokens dir))
    (r : R Unit) (ws : List (Text × Bytes))
    (h : Exec m d (.convert data processed inputTokens dir) (r, ws))
    (d' : Files) (hs : Stopped ws d d') (path : Text) :
    AfterCrash d d' path (fun ts => ∃ b, d.read inputTokens = some b ∧ readTokenSet b = .ok ts) := by
  have hfit := saves_fit_convert hm hsmall
  refine crash_of_written hs ?_ path
  generalize ho : (r, ws) = o at h
  have sub : ∀ {ws' : List (Text × Bytes)} {r' : R Unit}, (r, ws) = attempt d ws' r' → ∀ w ∈ ws, w ∈ ws' :=
    fun e w hw => attempt_sub e.symm w hw
  cases h with
  | convertOpen h => rw [Prod.mk.injEq] at ho; rw [ho.2]; simp
  | convertFail hv hr hp h => rw [Prod.mk.injEq] at ho; rw [ho.2]; simp
  | @convert _ _ _ _ v raw file f hv hr' hp h =>
    intro w hw
    have := sub ho w hw
    unfold inDir at this
    rw [List.map_singleton, List.mem_singleton] at this
    subst this
    obtain ⟨ts, st, k1, k2, k3, k4⟩ := converted (dir := dir) hm hv hr' hp h
    have hin := (fromJson_loaded k1).inRange
    refine ⟨ts, ?_, ?_⟩
    · obtain ⟨b, g1, g2⟩ := ok_bind_inv hv
      refine ⟨b, unwrapR_inv g1, ?_⟩
      unfold readTokenSet
      rw [g2]
      exact k1
    · rw [← k2]
      exact (written_stats hr (hfit st k4) (by rw [k2]; exact hin) k3).2

-- the hypotheses are met: the saved file of a small set, and three bytes of data, also given as the
-- processed file
example : ∃ d : Files, SmallEnough aMachine d (.convert "data".toList (some "data".toList) "t".toList "dir".toList) ∧
    ∃ b ts, d.read "t".toList = some b ∧ readTokenSet b = .ok ts ∧ ts.sequences ≠ [] ∧
      d.read "data".toList = some [97, 98, 10] := by
  have hr : RatioText aMachine.ratio := fun _ _ => .inl rfl
  have hf : Fits64 (TokenStats.new Example.smallHuff (some 1000)) :=
    ⟨by decide, by decide, by decide, fun n h => by have := Option.some.inj h; subst this; decide⟩
  obtain ⟨v, text, h1, _, h3⟩ := C52_file_is_json aMachine hr _ hf Example.smallHuff_regular.inRange
  have hin := Example.smallHuff_regular.inRange
  have hst := JsonWrite.storable_stats (st := TokenStats.new Example.smallHuff (some 1000)) hr hf.ntokens
    hf.scanned hf.total hf.initial hin h1
  have hload : fromJson v = .ok { Example.smallHuff with splitParagraphs := false } := by
    obtain ⟨v', w', g1, g2, g3⟩ := C17_stats_file aMachine.ratio (TokenStats.new Example.smallHuff (some 1000)) hin
    have := Except.ok.inj (g1.symm.trans h1)
    subst this
    obtain ⟨w, k1, k2⟩ := C17_roundtrip_partial _ Example.smallHuff_regular (.inr (.inl rfl))
    have := Except.ok.inj (g2.symm.trans k1)
    subst this
    rw [g3, k2]
  have hparse : readTokenSet (utf8Encode text) = .ok { Example.smallHuff with splitParagraphs := false } := by
    unfold readTokenSet
    rw [JsonWrite.parseBytes_of h3 hst (by decide)]
    exact hload
  refine ⟨⟨fun p => if p = "t".toList then some (utf8Encode text) else some [97, 98, 10], fun _ => true⟩,
    ?_, _, _, rfl, hparse, by decide, rfl⟩
  intro b ts raw bytes g1 g2 g3
  have := Option.some.inj g1
  subst this
  have := Except.ok.inj (hparse.symm.trans g2)
  subst this
  cases g3 with
  | given h hp hf =>
    have := Option.some.inj h
    subst this
    have := Option.some.inj hp
    subst this
    have := Option.some.inj hf
    subst this
    exact ⟨by decide, by decide, 8, by decide, by decide, by decide⟩
  | made _ hp => cases hp

/-- **C57**.  Saving is not atomic: whatever file a command writes first, there is a point at which the
file is empty, so that a token set that was there is lost and the file cannot be read. -/
theorem C57_not_atomic (m : Machine) (d : Files) (cmd : Command) (r : R Unit) (path : Text) (b : Bytes)
    (ws : List (Text × Bytes)) (h : Exec m d cmd (r, (path, b) :: ws)) :
    ∃ d', Stopped ((path, b) :: ws) d d' ∧ d'.read path = some [] ∧ readTokenSet [] = .error .unwrapNone :=
  ⟨_, .during (part := []) (rest := b) rfl, by simp [Files.write], rfl⟩

/-! ## C58 nothing else is touched -/

/-- **C58**.  Every command, on any files, killed at any point or ended in any way, leaves all files as
they were except the ones it is meant to write: `process` its output, `count-chars` none, `convert` and
`optimize` files with names of token sets in the directory given. -/
theorem C58_nothing_else (m : Machine) (d : Files) (cmd : Command) (r : R Unit) (ws : List (Text × Bytes))
    (h : Exec m d cmd (r, ws)) (d' : Files) (hs : Stopped ws d d') (path : Text)
    (hp : ¬ MayWrite cmd path) : d'.read path = d.read path := by
  rcases stopped_read hs path with h1 | ⟨b, part, rest, h1, _⟩
  · exact h1
  · exact absurd (exec_where h _ h1) hp

/-- **C58**.  An optimize command with good input writes only files of the requested type and processing,
with no more tokens than asked for. -/
theorem C58_optimize_names (m : Machine) (hm : MachineOk m) (d : Files) (data : Text)
    (processed : Option Text) (dir : Text) (p : Processing) (ty : TokenType) (ntokens : Nat)
    (inputTokens : Option Text) (minSize : Option Nat) (hg : StartsGood d p ty ntokens inputTokens)
    (r : R Unit) (ws : List (Text × Bytes))
    (h : Exec m d (.optimize data processed dir p ty ntokens inputTokens minSize) (r, ws)) :
    ∀ w ∈ ws, ∃ n ≤ ntokens, w.1 = fileIn dir (tokenFile n p ty) := by
  generalize ho : (r, ws) = o at h
  have sub : ∀ {ws' : List (Text × Bytes)} {r' : R Unit}, (r, ws) = attempt d ws' r' → ∀ w ∈ ws, w ∈ ws' :=
    fun e w hw => attempt_sub e.symm w hw
  have key : ∀ {saved : List (Text × Text)},
      (∀ f ∈ saved, ∃ ts, ValidSet ty p ntokens ts ∧ savedFile ts = .ok f) →
      ∀ w ∈ inDir dir saved, ∃ n ≤ ntokens, w.1 = fileIn dir (tokenFile n p ty) := by
    intro saved hsv w hw
    obtain ⟨f, hf, rfl⟩ := List.mem_map.1 hw
    obtain ⟨ts, h1, h2⟩ := hsv f hf
    refine ⟨ts.tokens.length, h1.budget, ?_⟩
    simp only []
    rw [(written_saved h1.regular.inRange h2).1, tokenFile_name, h1.processing, h1.type, joinPath_eq]
  cases h with
  | optimizeOpen h => rw [Prod.mk.injEq] at ho; rw [ho.2]; simp
  | optimizePrepare hr hp hi h => rw [Prod.mk.injEq] at ho; rw [ho.2]; simp
  | optimizeFail hr' hp hi hd ht hopt h =>
    intro w hw
    exact key (optimized_good hm (starts_input hg hi ht) hopt).saved w (sub ho w hw)
  | optimize hr' hp hi hd ht hopt h =>
    intro w hw
    have hout := optimized_good hm (starts_input hg hi ht) hopt
    have := sub ho w hw
    unfold inDir at this
    rw [List.map_append, List.mem_append] at this
    rcases this with h1 | h1
    · exact key hout.saved w h1
    · rw [List.map_singleton, List.mem_singleton] at h1
      subst h1
      obtain ⟨k1, k2⟩ := hout.result _ rfl
      obtain ⟨v, v1, v2, _⟩ := toJson_stats_ok m k1.regular.inRange
      have := Except.ok.inj (v2.symm.trans h)
      subst this
      refine ⟨_, k1.budget, ?_⟩
      simp only []
      rw [tokenFile_name, k1.processing, k1.type, joinPath_eq]

/-! ## C59 optimize, then use the result -/

theorem optimize_disk {m : Machine} (hm : MachineOk m) (hr : RatioText m.ratio) {d : Files}
    {data : Text} {processed : Option Text} {dir : Text} {p : Processing} {ty : TokenType} {ntokens : Nat}
    {inputTokens : Option Text} {minSize : Option Nat} (hg : StartsGood d p ty ntokens inputTokens)
    (hfit : ∀ st, Saves m d (.optimize data processed dir p ty ntokens inputTokens minSize) st → Fits64 st)
    {ws : List (Text × Bytes)}
    (h : Exec m d (.optimize data processed dir p ty ntokens inputTokens minSize) (.ok (), ws)) :
    ∃ (st : TokenStats) (f : Text × Text) (path : Text), ValidSet ty p ntokens st.tokenSet ∧ Workable ty p ntokens st.tokenSet ∧
      Fits64 st ∧ statsFile m st = .ok f ∧
      path = fileIn dir (tokenFile st.tokenSet.tokens.length p ty) ∧ path = fileIn dir f.1 ∧
      (writeAll d ws).read path = some (utf8Encode f.2) ∧ d.creatable path = true ∧
      Written st.tokenSet (utf8Encode f.2) := by
  generalize ho : (Except.ok (), ws) = o at h
  cases h with
  | optimizeOpen h => cases ho
  | optimizePrepare hr hp hi h => cases ho
  | optimizeFail hr' hp hi hd ht hopt h =>
    obtain ⟨_, e, _⟩ := attempt_ok ho.symm
    cases e
  | @optimize _ _ _ _ _ _ _ _ raw file v bytes ts st saved f hr' hp hi hd ht hopt h =>
    obtain ⟨e, _, hc⟩ := attempt_ok ho.symm
    have hw : ws = saved.map (fun f => (fileIn dir f.1, utf8Encode f.2)) ++
        [(fileIn dir f.1, utf8Encode f.2)] := by
      rw [e]; simp [inDir, joinPath_eq]
    obtain ⟨k1, k2⟩ := (optimized_good hm (starts_input hg hi ht) hopt).result _ rfl
    have hf := hfit _ (.optimize hr' hp hi hd ht hopt)
    obtain ⟨n1, n2⟩ := written_stats hr hf k1.regular.inRange h
    have hpath : fileIn dir f.1 = fileIn dir (tokenFile st.tokenSet.tokens.length p ty) := by
      rw [n1, tokenFile_name, k1.processing, k1.type]
    refine ⟨st, f, _, k1, k2, hf, h, rfl, hpath.symm, ?_, ?_, n2⟩
    · rw [← hpath, hw]; exact writeAll_last _ _ _ _
    · rw [← hpath]
      exact hc (fileIn dir f.1, utf8Encode f.2) (by rw [← e, hw]; simp)

/-- **C59**.  If an optimize command with good input succeeds, then the last file it has written holds,
in the directory and under the name that belong to it, a valid set of the requested type, processing and
size; for types bytes and byteshuff that set (except for the paragraph flag, see C17) is what is read
from the file. -/
theorem C59_result_on_disk (m : Machine) (hm : MachineOk m) (hr : RatioText m.ratio) (d : Files)
    (data : Text) (processed : Option Text) (dir : Text) (p : Processing) (ty : TokenType) (ntokens : Nat)
    (inputTokens : Option Text) (minSize : Option Nat) (hg : StartsGood d p ty ntokens inputTokens)
    (hsmall : SmallEnough m d (.optimize data processed dir p ty ntokens inputTokens minSize))
    (ws : List (Text × Bytes))
    (h : Exec m d (.optimize data processed dir p ty ntokens inputTokens minSize) (.ok (), ws)) :
    ∃ ts b, ValidSet ty p ntokens ts ∧
      (writeAll d ws).read (fileIn dir (tokenFile ts.tokens.length p ty)) = some b ∧ FileOf ts b ∧
      (ty = .bytes ∨ ty = .bytesHuff → readTokenSet b = .ok { ts with splitParagraphs := false }) := by
  have hfit := saves_fit_optimize hm hg hsmall
  obtain ⟨st, f, path, k1, k2, _, _, e, _, h1, _, h2⟩ := optimize_disk hm hr hg hfit h
  subst e
  refine ⟨_, _, k1, h1, h2.whole, ?_⟩
  intro hty
  obtain ⟨v, v1, v2⟩ := h2.whole
  rw [v2]
  exact saved_loads m k2.family k1.sorted (by rw [k1.type]; tauto) (.inl v1)

/-- **C59** (it succeeds).  An optimize command without `--min-data-size`, with good input, whose files can
be read and prepared, with data below 2^34 bytes and a directory in which files can be created: it has
an outcome, and every outcome is a success. -/
theorem C59_optimize_succeeds (m : Machine) (hm : MachineOk m) (d : Files) (data : Text)
    (processed : Option Text) (dir : Text) (p : Processing) (ty : TokenType) (ntokens : Nat)
    (inputTokens : Option Text) (hg : StartsGood d p ty ntokens inputTokens)
    (raw bytes : Bytes) (hdata : DataRead m d data processed p raw bytes)
    (hinput : ∀ f, inputTokens = some f → ∃ b ts, d.read f = some b ∧ readTokenSet b = .ok ts)
    (hsize : raw.length < 2 ^ 34)
    (hc : ∀ n ≤ ntokens, d.creatable (fileIn dir (tokenFile n p ty)) = true) :
    (∃ o, Exec m d (.optimize data processed dir p ty ntokens inputTokens none) o) ∧
    ∀ o, Exec m d (.optimize data processed dir p ty ntokens inputTokens none) o → o.1 = .ok () := by
  obtain ⟨file, hr, hp, hd⟩ := dataRead_iff.1 hdata
  obtain ⟨v, ts, hi, ht⟩ : ∃ v ts, openInput d inputTokens = .ok v ∧ readInput v = .ok ts := by
    cases inputTokens with
    | none => exact ⟨none, none, rfl, rfl⟩
    | some f =>
      obtain ⟨b, ts, g1, g2⟩ := hinput f rfl
      obtain ⟨v, g3, g4⟩ := readJson_of g1 g2
      exact ⟨some v, some ts, by simp only [openInput, g3, R.ok_bind], by simp only [readInput, g4, R.ok_bind]⟩
  have hgood := starts_input hg hi ht
  obtain ⟨⟨r, hex⟩, hall⟩ := C47_optimize_command m hm ntokens raw file p ty v ts ht hgood hsize bytes hd
  have hsz : raw.length < 1 <<< 34 := by
    have : (1 <<< 34 : Nat) = 2 ^ 34 := by decide
    omega
  constructor
  · obtain ⟨env, h1, h2, _⟩ := memoryEnv_ok hm bytes (some raw.length)
    obtain ⟨st, w, h⟩ := optimize_exists h2 hgood
    have ho : Optimized m bytes ntokens p ty raw.length ts none (.ok st) w.saved := .memory hsz h1 h
    obtain ⟨k1, _⟩ := (optimized_good hm hgood ho).result st rfl
    obtain ⟨w, _, hf, _⟩ := toJson_stats_ok m k1.regular.inRange
    exact ⟨_, .optimize hr hp hi hd ht ho hf⟩
  · intro o ho
    have hnames := C58_optimize_names m hm d data processed dir p ty ntokens inputTokens none hg
    have hok : ∀ {r' saved}, Optimized m bytes ntokens p ty raw.length ts none r' saved →
        ∃ st, r' = .ok st := by
      intro r' saved h
      cases h with
      | memory _ he h =>
        obtain ⟨env, h1, h2, _⟩ := memoryEnv_ok hm bytes (some raw.length)
        have := Except.ok.inj (h1.symm.trans he)
        subst this
        obtain ⟨st, e, _⟩ := optimize_good h2 hgood h
        exact ⟨st, e⟩
      | memoryFail _ he =>
        obtain ⟨env, h1, _⟩ := memoryEnv_ok hm bytes (some raw.length)
        rw [h1] at he; cases he
      | file hn => exact absurd hsz hn
      | fileFail hn => exact absurd hsz hn
    cases ho with
    | optimizeOpen h =>
      rcases h with h | h | h
      · rw [hr] at h; cases h
      · rw [hp] at h; cases h
      · rw [hi] at h; cases h
    | optimizePrepare hr' hp' hi' h =>
      have := Except.ok.inj (hr.symm.trans hr')
      subst this
      have := Except.ok.inj (hp.symm.trans hp')
      subst this
      have := Except.ok.inj (hi.symm.trans hi')
      subst this
      rcases h with h | h
      · rw [hd] at h; cases h
      · rw [ht] at h; cases h
    | optimizeFail hr' hp' hi' hd' ht' ho' h =>
      have := Except.ok.inj (hr.symm.trans hr')
      subst this
      have := Except.ok.inj (hp.symm.trans hp')
      subst this
      have := Except.ok.inj (hi.symm.trans hi')
      subst this
      have := Except.ok.inj (hd.symm.trans hd')
      subst this
      have := Except.ok.inj (ht.symm.trans ht')
      subst this
      obtain ⟨st, rfl⟩ := hok ho'
      obtain ⟨k1, _⟩ := (optimized_good hm hgood ho').result st rfl
      obtain ⟨w, _, hf, _⟩ := toJson_stats_ok m k1.regular.inRange
      rw [R.ok_bind, hf] at h
      cases h
    | @optimize _ _ _ _ _ _ _ _ raw' file' v' bytes' ts' st saved f hr' hp' hi' hd' ht' ho' h =>
      have hn : ∀ w ∈ inDir dir (saved ++ [f]), d.creatable w.1 = true := by
        have hdd : ({ d with creatable := fun _ => true } : Files).creatable = fun _ => true := rfl
        have hex : Exec m { d with creatable := fun _ => true }
            (.optimize data processed dir p ty ntokens inputTokens none)
            (.ok (), inDir dir (saved ++ [f])) := by
          have := Exec.optimize (m := m) (d := { d with creatable := fun _ => true }) (data := data)
            (processed := processed) (tokensDir := dir) (p := p) (ty := ty) (ntokens := ntokens)
            (inputTokens := inputTokens) (minSize := none) hr' hp' hi' hd' ht' ho' h
          rw [attempt, if_pos (by simp)] at this
          exact this
        intro w hw
        obtain ⟨n, h1, h2⟩ := C58_optimize_names m hm { d with creatable := fun _ => true } data
          processed dir p ty ntokens inputTokens none hg _ _ hex w hw
        rw [h2]
        exact hc n h1
      rw [attempt, if_pos (by simpa using hn)]

/-- **C59**.  And the file can be given to convert: if an optimize command for type bytes or byteshuff
has succeeded, and the data can still be read and prepared, then convert with the new file and the same
directory has an outcome.  It rewrites that file, and the same set is read from it as before; or it
panics in the file sampler (see C25). -/
theorem C59_convert_after (m : Machine) (hm : MachineOk m) (hr : RatioText m.ratio) (d : Files)
    (data : Text) (processed : Option Text) (dir : Text) (p : Processing) (ty : TokenType) (ntokens : Nat)
    (hty : ty = .bytes ∨ ty = .bytesHuff)
    (inputTokens : Option Text) (minSize : Option Nat) (hg : StartsGood d p ty ntokens inputTokens)
    (hsmall : SmallEnough m d (.optimize data processed dir p ty ntokens inputTokens minSize))
    (ws : List (Text × Bytes))
    (h : Exec m d (.optimize data processed dir p ty ntokens inputTokens minSize) (.ok (), ws))
    (d1 : Files) (hd1 : d1 = writeAll d ws) (data' : Text) (processed' : Option Text)
    (raw bytes : Bytes) (hdata : DataRead m d1 data' processed' p raw bytes)
    (hl1 : raw.length < 2 ^ 64) (hl2 : bytes.length < 2 ^ 54) :
    ∃ ts path b, ValidSet ty p ntokens ts ∧ path = fileIn dir (tokenFile ts.tokens.length p ty) ∧
      d1.read path = some b ∧ readTokenSet b = .ok { ts with splitParagraphs := false } ∧
      (∃ o, Exec m d1 (.convert data' processed' path dir) o) ∧
      ∀ o, Exec m d1 (.convert data' processed' path dir) o →
        (∃ b', o = (.ok (), [(path, b')]) ∧ readTokenSet b' = readTokenSet b) ∨
        ∃ short e, fileSampler bytes (2 ^ 24) short = .error e ∧ o = (.error e, []) := by
  have hfit := saves_fit_optimize hm hg hsmall
  obtain ⟨file, hraw, hfile, hbytes⟩ := dataRead_iff.1 hdata
  obtain ⟨st, f, path, k1, k2, k3, k4, e, e', h1, hc, h2⟩ := optimize_disk hm hr hg hfit h
  have hty' : st.tokenSet.tokenType = .bytes ∨ st.tokenSet.tokenType = .bytesHuff ∨
      ∀ b : UInt8, Token.str [b] ∈ st.tokenSet.tokens := by rw [k1.type]; tauto
  have hin := k1.regular.inRange
  obtain ⟨v, text, v1, v2, v3⟩ := C52_file_is_json m hr st k3 hin
  have := Except.ok.inj (v2.symm.trans k4)
  subst this
  have hst := JsonWrite.storable_stats hr k3.ntokens k3.scanned k3.total k3.initial hin v1
  have hload := saved_loads m k2.family k1.sorted hty' (.inr ⟨st, rfl, v1⟩)
  have hread : readJson d1 path = .ok v := by
    unfold readJson openFile
    rw [hd1, h1]
    show unwrapR (JsonRead.parseBytes _) = _
    rw [JsonWrite.parseBytes_of v3 hst (by decide)]
    rfl
  have hrt : readTokenSet (utf8Encode text) = .ok { st.tokenSet with splitParagraphs := false } := by
    rw [C52_any_layout m hr st k3 hin v v1 text v3, hload]
  have hproc : ({ st.tokenSet with splitParagraphs := false } : TokenSet).processing = p := k1.processing
  have hopen : ∀ ts, fromJson v = .ok ts → openProcessed d1 processed' ts.processing = .ok file := by
    intro ts hts
    have := Except.ok.inj (hload.symm.trans hts)
    subst this
    rw [hproc]; exact hfile
  have hc1 : d1.creatable path = true := by rw [hd1, writeAll_creatable]; exact hc
  obtain ⟨⟨r, hex⟩, hall⟩ := C48_convert_partial m hm raw file st.tokenSet k2.family k1.sorted hty' v
    (.inr ⟨st, rfl, v1⟩) bytes (by rw [k1.processing]; exact hbytes)
  refine ⟨st.tokenSet, path, utf8Encode text, k1, e, by rw [hd1]; exact h1, hrt, ?_, ?_⟩
  · cases r with
    | error x => exact ⟨_, .convertFail hread hraw hopen hex⟩
    | ok g => exact ⟨_, .convert hread hraw hopen hex⟩
  · intro o ho
    have hfit' : ∀ st, Saves m d1 (.convert data' processed' path dir) st → Fits64 st := by
      refine saves_fit_convert hm ?_
      intro b' ts' raw' bytes' g1 g2 g3
      obtain ⟨v', q1, q2⟩ := readJson_of g1 g2
      obtain ⟨file', q3, q4, q5⟩ := dataRead_iff.1 g3
      have := Except.ok.inj (hread.symm.trans q1)
      subst this
      have := Except.ok.inj (hload.symm.trans q2)
      subst this
      have := Except.ok.inj (hraw.symm.trans q3)
      subst this
      have := Except.ok.inj ((hopen _ hload).symm.trans q4)
      subst this
      have := Except.ok.inj (hbytes.symm.trans (by rw [← hproc]; exact q5))
      subst this
      refine ⟨hl1, k3.ntokens, 256, by decide, by omega,
        family_short (family_flag k2.family false)⟩
    cases ho with
    | convertOpen h =>
      rcases h with h | h | ⟨v', ts', h3, h4, h5⟩
      · rw [hread] at h; cases h
      · rw [hraw] at h; cases h
      · have := Except.ok.inj (hread.symm.trans h3)
        subst this
        rw [hopen _ h4] at h5; cases h5
    | convertFail hv' hr' hp' h' =>
      have := Except.ok.inj (hread.symm.trans hv')
      subst this
      have := Except.ok.inj (hraw.symm.trans hr')
      subst this
      have := Except.ok.inj ((hopen _ hload).symm.trans (hp' _ hload))
      subst this
      rcases hall _ h' with ⟨_, _, e1, _⟩ | ⟨short, x, e1, e2⟩
      · cases e1
      · have := Except.error.inj e2
        subst this
        exact .inr ⟨short, _, e1, rfl⟩
    | @convert _ _ _ _ _ _ _ g hv' hr' hp' h' =>
      have := Except.ok.inj (hread.symm.trans hv')
      subst this
      have := Except.ok.inj (hraw.symm.trans hr')
      subst this
      have := Except.ok.inj ((hopen _ hload).symm.trans (hp' _ hload))
      subst this
      obtain ⟨ts', st', g1, g2, g3, g4⟩ := converted (dir := dir) hm hread hraw hopen h'
      have := Except.ok.inj (hload.symm.trans g1)
      subst this
      have hin' : SeqsInRange st'.tokenSet := by rw [g2]; exact hin
      obtain ⟨n1, n2⟩ := written_stats hr (hfit' _ g4) hin' g3
      have hname : fileIn dir g.1 = path := by rw [n1, g2, e']; rfl
      left
      refine ⟨utf8Encode g.2, ?_, ?_⟩
      · have hw : inDir dir [g] = [(path, utf8Encode g.2)] := by simp [inDir, joinPath_eq, hname]
        rw [hw, attempt, if_pos (by simp [hc1])]
      · obtain ⟨w, w1, w2⟩ := n2.whole
        rw [w2, hrt]
        have hfam := family_flag k2.family false
        exact saved_loads m (ts := { st.tokenSet with splitParagraphs := false }) hfam k1.sorted hty'
          (.inl (by rw [g2] at w1; exact w1))

/-- Files for the examples: a data file and a directory. -/
def someFiles : Files :=
  ⟨fun p => if p = "data".toList then some [97, 98, 10] else none, fun _ => true⟩

theorem someFiles_start (p : Processing) (ty : TokenType) (ntokens : Nat) (h : Admissible ty ntokens) :
    StartsGood someFiles p ty ntokens none := h

theorem someFiles_small (dir : Text) (ty : TokenType) (ntokens : Nat) (h : ntokens < 2 ^ 64)
    (minSize : Option Nat) : SmallEnough aMachine someFiles
      (.optimize "data".toList none dir .raw ty ntokens none minSize) := by
  refine ⟨h, ?_⟩
  intro raw bytes h
  cases h with
  | raw h =>
    have := Option.some.inj h
    subst this
    decide

-- the hypotheses of C57 - C59 are met, and there is a run that succeeds and leaves a result
example : ∃ ws, Exec aMachine someFiles (.optimize "data".toList none "dir".toList .raw .bytes 300 none none)
      (.ok (), ws) ∧
    ∃ ts b, ValidSet .bytes .raw 300 ts ∧ readTokenSet b = .ok { ts with splitParagraphs := false } ∧
      (writeAll someFiles ws).read (fileIn "dir".toList (tokenFile ts.tokens.length .raw .bytes)) = some b := by
  have hg := someFiles_start .raw .bytes 300 (by show 256 ≤ 300; decide)
  obtain ⟨⟨o, ho⟩, hall⟩ := C59_optimize_succeeds aMachine aMachine_ok someFiles "data".toList none
    "dir".toList .raw .bytes 300 none hg [97, 98, 10] [97, 98, 10] (.raw rfl) (fun _ h => by cases h)
    (by decide) (fun _ _ => rfl)
  have h := hall o ho
  obtain ⟨r, ws⟩ := o
  have h' : r = .ok () := h
  subst h'
  obtain ⟨ts, b, h1, h2, _, h3⟩ := C59_result_on_disk aMachine aMachine_ok (fun _ _ => .inl rfl) someFiles
    "data".toList none "dir".toList .raw .bytes 300 none none hg
    (someFiles_small _ _ _ (by decide) _) ws ho
  exact ⟨ws, ho, ts, b, h1, h3 (.inl rfl), h2⟩

/-! ## C60 the process command -/

/-- **C60**.  `process` on a file that holds text, with another path as output at which a file can be
created, has exactly one outcome: it succeeds, and the output then holds what the documented processing
(C22) makes of the text with `\r\n` replaced by `\n` and with a final newline.  The data file is
unchanged. -/
theorem C60_process (m : Machine) (hnl : m.db.isAlphabetic '\n' = false) (d : Files) (data output : Text)
    (text : Text) (hdata : d.read data = some (utf8Encode text)) (hne : output ≠ data)
    (hc : d.creatable output = true) :
    ∃ out, Processing.process m.db (finalNewline (dropCR text)) = .ok out ∧
      (∀ o, Exec m d (.process data output) o ↔ o = (.ok (), [(output, utf8Encode out)])) ∧
      (writeAll d [(output, utf8Encode out)]).read output = some (utf8Encode out) ∧
      (writeAll d [(output, utf8Encode out)]).read data = d.read data := by
  obtain ⟨out, h1, h2⟩ := C21_file_any m.db hnl text
  have hb := processBytes_text m.db text out h1
  have hrd : (d.write output []).read data = some (utf8Encode text) := by
    simp only [Files.write]
    rw [if_neg (fun e => hne e.symm), hdata]
  have hat : ∀ r, attempt d [(output, utf8Encode out)] r = (r, [(output, utf8Encode out)]) := by
    intro r
    rw [attempt, if_pos (by simp [hc])]
  refine ⟨out, h2, ?_, by simp [writeAll, Files.write],
    by simp only [writeAll, Files.write]; rw [if_neg (fun e => hne e.symm)]⟩
  intro o
  constructor
  · intro h
    cases h with
    | processOpen h => rw [hdata] at h; cases h
    | process _ hf hp =>
      have := Option.some.inj (hrd.symm.trans hf)
      subst this
      have := Except.ok.inj (hb.symm.trans hp)
      obtain ⟨rfl, rfl⟩ := Prod.mk.injEq .. ▸ this
      exact hat _
    | processPanic _ hf hp =>
      have := Option.some.inj (hrd.symm.trans hf)
      subst this
      rw [hb] at hp; cases hp
  · rintro rfl
    have := Exec.process (m := m) (d := d) (data := data) (output := output) (by rw [hdata]; simp) hrd hb
    rw [hat] at this
    exact this

-- `process` on the files above: the text is lower case, and a word end follows the word
example : ∃ o, Exec aMachine someFiles (.process "data".toList "out".toList) o ∧
    o = (.ok (), [("out".toList, [97, 98, 0x16, 10])]) := by
  obtain ⟨out, h1, h2, _⟩ := C60_process aMachine (by rfl) someFiles "data".toList "out".toList
    ['a', 'b', '\n'] (by rfl) (by decide) rfl
  have : out = ['a', 'b', '\x16', '\n'] := Except.ok.inj (h1.symm.trans rfl)
  subst this
  exact ⟨_, (h2 _).2 rfl, rfl⟩

/-- **C60** (data that is not text).  If the data file is not valid UTF-8, `process` panics; the output
holds the processed lines before the first line that is not valid. -/
theorem C60_process_invalid (m : Machine) (d : Files) (data output : Text) (file : Bytes)
    (hdata : d.read data = some file) (hv : validUtf8 file = false) (hne : output ≠ data)
    (hc : d.creatable output = true) :
    ∃ (before : List Text) (line : Bytes) (after : Bytes) (out : Text), (∀ x ∈ before, '\n' ∉ x) ∧
      file = utf8Encode (before.flatMap (· ++ ['\n'])) ++ line ++ after ∧
      (10 : UInt8) ∉ line.dropLast ∧ validUtf8 line = false ∧
      (line.getLast? = some 10 ∨ after = []) ∧
      Processing.processFile m.db (before.flatMap (· ++ ['\n'])) = .ok out ∧
      ∀ o, Exec m d (.process data output) o ↔ o = (.error .unwrapNone, [(output, utf8Encode out)]) := by
  obtain ⟨ls, l, rest, h1, h2, h3, h4⟩ := processBytes_bad m.db file hv
  obtain ⟨out, h5⟩ := processFile_ok m.db (ls.flatMap (· ++ ['\n']))
  have hb := h4 out h5
  have hrd : (d.write output []).read data = some file := by
    simp only [Files.write]
    rw [if_neg (fun e => hne e.symm), hdata]
  have hat : ∀ r, attempt d [(output, utf8Encode out)] r = (r, [(output, utf8Encode out)]) := by
    intro r
    rw [attempt, if_pos (by simp [hc])]
  refine ⟨ls, l, rest.flatten, out, h1, ?_, ?_, h3, ?_, h5, ?_⟩
  · have := splitLines_flatten file
    rw [h2] at this
    rw [← this, List.flatten_append, List.flatten_cons, List.append_assoc]
    congr 1
    clear * -
    induction ls with
    | nil => rfl
    | cons x ls ih => rw [List.flatMap_cons, utf8Encode_append, List.map_cons, List.flatten_cons, ih]
  · have hl := splitLines_isLine file l (by rw [h2]; simp)
    intro h10
    obtain ⟨a, b, e⟩ := List.append_of_mem h10
    have := hl.2 a (b ++ [l.getLast hl.1]) (by
      rw [← List.cons_append, ← List.append_assoc, ← e, List.dropLast_append_getLast])
    simp at this
  · by_cases hr : rest = []
    · right; rw [hr]; rfl
    · left
      obtain ⟨u, e⟩ := splitLines_ends file l (by
        rw [h2, List.dropLast_append_of_ne_nil (by simp), List.dropLast_cons_of_ne_nil hr]
        simp)
      rw [e]; simp
  intro o
  constructor
  · intro h
    cases h with
    | processOpen h => rw [hdata] at h; cases h
    | process _ hf hp =>
      have := Option.some.inj (hrd.symm.trans hf)
      subst this
      have := Except.ok.inj (hb.symm.trans hp)
      obtain ⟨rfl, rfl⟩ := Prod.mk.injEq .. ▸ this
      exact hat _
    | processPanic _ hf hp =>
      have := Option.some.inj (hrd.symm.trans hf)
      subst this
      rw [hb] at hp; cases hp
  · rintro rfl
    have := Exec.process (m := m) (d := d) (data := data) (output := output) (by rw [hdata]; simp) hrd hb
    rw [hat] at this
    exact this

example : validUtf8 [97, 10, 255] = false := by decide

/-- **C60** (failing to start).  If the data file does not exist, `process` panics without creating the
output; if the output cannot be created, it panics. -/
theorem C60_process_files (m : Machine) (d : Files) (data output : Text) :
    (d.read data = none → ∀ o, Exec m d (.process data output) o ↔ o = (.error .unwrapNone, [])) ∧
    (d.creatable output = false → ∀ o, Exec m d (.process data output) o → o = (.error .unwrapNone, [])) := by
  constructor
  · intro h o
    constructor
    · intro ho
      cases ho with
      | processOpen => rfl
      | process h' => exact absurd h h'
      | processPanic h' => exact absurd h h'
    · rintro rfl; exact .processOpen h
  · intro hc o ho
    cases ho with
    | processOpen => rfl
    | process => simp [attempt, hc]
    | processPanic => simp [attempt, hc]

/-- **C60** is violated if the output is the data file itself: `process` succeeds, and the data is lost. -/
theorem C60_onto_itself (m : Machine) (d : Files) (data : Text) (file : Bytes)
    (hdata : d.read data = some file) (hc : d.creatable data = true) :
    (∀ o, Exec m d (.process data data) o ↔ o = (.ok (), [(data, [])])) ∧
      (writeAll d [(data, [])]).read data = some [] := by
  have hrd : (d.write data []).read data = some [] := by simp [Files.write]
  have hb : processBytes m.db [] = .ok ([], true) := rfl
  have hat : ∀ r, attempt d [(data, [])] r = (r, [(data, [])]) := by
    intro r
    rw [attempt, if_pos (by simp [hc])]
  refine ⟨?_, by simp [writeAll, Files.write]⟩
  intro o
  constructor
  · intro h
    cases h with
    | processOpen h => rw [hdata] at h; cases h
    | process _ hf hp =>
      have := Option.some.inj (hrd.symm.trans hf)
      subst this
      have := Except.ok.inj (hb.symm.trans hp)
      obtain ⟨rfl, rfl⟩ := Prod.mk.injEq .. ▸ this
      exact hat _
    | processPanic _ hf hp =>
      have := Option.some.inj (hrd.symm.trans hf)
      subst this
      rw [hb] at hp; cases hp
  · rintro rfl
    have := Exec.process (m := m) (d := d) (data := data) (output := data) (by rw [hdata]; simp) hrd hb
    rw [hat] at this
    exact this

end Tokens.Props
