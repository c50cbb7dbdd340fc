import Verif.Props.Real
import Verif.Props.Readme

/-!
# Property C138: a text comes back from the file of a run

Read together with `Verif/Spec/Disk.lean`, `Verif/Spec/Readme.lean` (`Restores`: characters whose capitals are known)
and `Verif/Spec/Words.lean` (`finalNewline`, `dropCR`).  `Exec` is the model of the commands on files
(`Verif/Model/Disk.lean`); reads may be short, threads, their schedule and the clock are free.  A token is given by its
place in the list of tokens.  `textBack` is what can be had back of a text: all of it for raw, and the text with Unix
line ends and a final newline for caps-words.
-/

namespace Tokens.Props
open Tokens Spec TokenSet Optimize Batch Main Input Disk Processing

set_option linter.unusedVariables false

/-! ### Proofs -/

/-- If a processed file is given and used, it holds what processing makes of the text (what `process` writes). -/
def ProcessedHolds (m : Machine) (d : Files) (processed : Option Text) (p : Processing) (text : List Char) : Prop :=
  p = .capsWords → ∀ f, processed = some f →
    ∃ out, Processing.processFile m.db text = .ok out ∧ d.read f = some (utf8Encode out)

/-- The decoder: the file says how the text was processed. -/
noncomputable def fileText (db : CharTables) (up : Char → Char) (b : Bytes) (l : List Nat) : Option (List Char) :=
  match readTokenSet b with
  | .ok ts => match ts.processing with
    | .raw => utf8Decode (fileDecode b l)
    | .capsWords => (utf8Decode (fileDecode b l)).map (Spec.readmeDecode db up .asIs)
  | .error _ => none

/-- Bytes that were made of a text are taken back to it. -/
theorem fileText_back {m : Machine} {K : Char → Prop} {up : Char → Char} (hK : Restores m.db K up)
    (hnl : m.db.isAlphabetic '\n' = false) (hKn : K '\n') {d : Files} {data : Text} {processed : Option Text}
    {p : Processing} {text : List Char} (ht : p = .capsWords → ∀ c ∈ text, K c)
    (hproc : ProcessedHolds m d processed p text) {bytes : Bytes}
    (hdata : DataRead m d data processed p (utf8Encode text) bytes) {ts : TokenSet} (hr : Regular ts)
    (hp : ts.processing = p) {b : Bytes} (hb : FileOf ts b) {l : List Nat} (hl : fileDecode b l = bytes) :
    fileText m.db up b l = some (textBack p text) := by
  unfold fileText
  simp only [fileOf_read hr hb, hp, hl]
  generalize hraw : utf8Encode text = raw at hdata
  cases hdata with
  | raw h =>
    rw [← hraw]
    exact utf8Decode_encode text
  | given h hpr hf =>
    obtain ⟨out, ho, hq⟩ := hproc rfl _ hpr
    obtain ⟨z, h1, h2⟩ := C62_readme_decoder_file m.db K up hK hnl hKn text (ht rfl)
    have := Except.ok.inj (h1.symm.trans ho)
    subst this
    have := Option.some.inj (hq.symm.trans hf)
    subst this
    simp only [utf8Decode_encode, Option.map_some, h2, textBack]
  | @made text' out h _ ho =>
    have e : text = text' := by
      have := congrArg utf8Decode hraw
      rw [utf8Decode_encode, utf8Decode_encode] at this
      exact Option.some.inj this
    subst e
    obtain ⟨z, h1, h2⟩ := C62_readme_decoder_file m.db K up hK hnl hKn text (ht rfl)
    have := Except.ok.inj (h1.symm.trans ho)
    subst this
    simp only [utf8Decode_encode, Option.map_some, h2, textBack]

theorem lossy_ascii {slices : List Bytes} (h : ∀ x ∈ slices.flatten, x < 128) :
    slices.map fromUtf8Lossy = slices :=
  map_eq_self_iff.2 fun s hs => (lossy_eq_iff s).2 (ascii_valid fun b hb => h b (List.mem_flatten.2 ⟨s, hs, hb⟩))

/-! ### Theorems -/

/-- **C138**.  There is one decoder, for all runs.  When optimize with good input succeeds on a file with a text in it (and
with `--processed` on the file that `process` writes for it), its last file reports a number of tokens, and there are exactly that many tokens of its set
from which, and from the bytes of this file and nothing else, the decoder makes the text: with --min-size, from 2^34
bytes on, and otherwise if what is tokenized is not longer than 2^20 bytes or is ASCII. -/
theorem C138_optimize_text (K : Char → Prop) (up : Char → Char) (db : CharTables)
    (hK : Restores db K up) (hnl : db.isAlphabetic '\n' = false) (hKn : K '\n') :
    ∃ decode : Bytes → List Nat → Option (List Char),
    ∀ (m : Machine) (hdb : m.db = db) (hm : MachineOk m) (hr : RatioText m.ratio) (d : Files)
    (data : Text) (processed : Option Text) (dir : Text) (p : Processing) (ty : TokenType) (ntokens : Nat)
    (inputTokens : Option Text) (minSize : Option Nat) (hg : StartsGood d p ty ntokens inputTokens)
    (hsmall : SmallEnough m d (.optimize data processed dir p ty ntokens inputTokens minSize))
    (ws : List (Text × Bytes))
    (h : Exec m d (.optimize data processed dir p ty ntokens inputTokens minSize) (.ok (), ws))
    (text : List Char) (bytes : Bytes) (hdata : DataRead m d data processed p (utf8Encode text) bytes)
    (hproc : ProcessedHolds m d processed p text) (htext : p = .capsWords → ∀ c ∈ text, K c)
    (hcut : minSize ≠ none ∨ 2 ^ 34 ≤ (utf8Encode text).length ∨ bytes.length ≤ 2 ^ 20 ∨ ∀ x ∈ bytes, x < 128),
    ∃ n path b v s tokens, n ≤ ntokens ∧ path = fileIn dir (tokenFile n p ty) ∧
      (writeAll d ws).read path = some b ∧ readJson (writeAll d ws) path = .ok v ∧
      v.get? "stats" = some s ∧ s.get? "total_tokens" = some (.num (tokens.length : Nat)) ∧
      (∀ i ∈ tokens, i < n) ∧ decode b tokens = some (textBack p text) := by
  refine ⟨fileText db up, ?_⟩
  intro m hdb hm hr d data processed dir p ty ntokens inputTokens minSize hg hsmall ws h text bytes hdata hproc htext hcut
  subst hdb
  obtain ⟨ts, path, b, v, slices, samples, k, h1, h2, h3, h4, h5, h6, h8, h7⟩ := C135_optimize_numbers m hm hr d data
    processed dir p ty ntokens inputTokens minSize hg hsmall ws h _ bytes hdata
  obtain ⟨tk, htk⟩ := k.accepted
  obtain ⟨_, ht⟩ := FragmentTokenizer.ok_of_new htk
  obtain ⟨s, tokens, e1, e2, e4, e3⟩ := reported_decodes h7 k.regular k.lossless ht h3
  have hisText : ∃ t, bytes = utf8Encode t := by
    generalize hraw : utf8Encode text = raw at hdata
    cases hdata with
    | raw => exact ⟨text, hraw.symm⟩
    | given _ hpr hf =>
      obtain ⟨out, _, hq⟩ := hproc rfl _ hpr
      exact ⟨out, Option.some.inj (hf.symm.trans hq)⟩
    | made _ _ ho => exact ⟨_, rfl⟩
  have hb : fileDecode b tokens = bytes := by
    rw [e3]
    rcases h6 with h6 | ⟨g1, g2, h6⟩
    · rw [h6, h5]
    · rcases hcut with hw | hw | hw | hw
      · exact absurd g1 hw
      · omega
      · exact h8 hw hisText
      · rw [h6, lossy_ascii (by rw [h5]; exact hw), h5]
  exact ⟨_, path, b, v, s, tokens, k.budget, h1, h2, h4, e1, e2, e4,
    fileText_back hK hnl hKn htext hproc hdata k.regular k.processing h3 hb⟩

/-- **C138** (convert).  The same for convert with a set that can be saved and decoded (`Regular`, `Lossless`, as all
sets that optimize saves), without any condition on the cuts. -/
theorem C138_convert_text (K : Char → Prop) (up : Char → Char) (db : CharTables)
    (hK : Restores db K up) (hnl : db.isAlphabetic '\n' = false) (hKn : K '\n') :
    ∃ decode : Bytes → List Nat → Option (List Char),
    ∀ (m : Machine) (hdb : m.db = db) (hm : MachineOk m) (hr : RatioText m.ratio) (d : Files)
    (data : Text) (processed : Option Text) (inputTokens dir : Text)
    (hsmall : SmallEnough m d (.convert data processed inputTokens dir)) (ws : List (Text × Bytes))
    (h : Exec m d (.convert data processed inputTokens dir) (.ok (), ws)) (b : Bytes) (ts : TokenSet)
    (hb : d.read inputTokens = some b) (hts : readTokenSet b = .ok ts) (hreg : Regular ts) (hlos : Lossless ts)
    (text : List Char) (bytes : Bytes) (hdata : DataRead m d data processed ts.processing (utf8Encode text) bytes)
    (hproc : ProcessedHolds m d processed ts.processing text) (htext : ts.processing = .capsWords → ∀ c ∈ text, K c),
    ∃ path b' v s tokens, ws = [(path, b')] ∧ readJson (writeAll d ws) path = .ok v ∧
      v.get? "stats" = some s ∧ s.get? "total_tokens" = some (.num (tokens.length : Nat)) ∧
      (∀ i ∈ tokens, i < ts.tokens.length) ∧ decode b' tokens = some (textBack ts.processing text) := by
  refine ⟨fileText db up, ?_⟩
  intro m hdb hm hr d data processed inputTokens dir hsmall ws h b ts hb hts hreg hlos text bytes hdata hproc htext
  subst hdb
  obtain ⟨path, b', v, samples, hw, _, h2, h3, h4⟩ := C135_convert_numbers m hm hr d data processed inputTokens dir
    hsmall ws h b ts hb hts _ bytes hdata
  obtain ⟨b'', hw', hf, ht, _⟩ := convert_written hm hr hsmall h hb hts
  have : b'' = b' := by
    have := hw'.symm.trans hw
    simp only [List.cons.injEq, Prod.mk.injEq] at this
    exact this.1.2
  subst this
  obtain ⟨s, tokens, e1, e2, e4, e3⟩ := reported_decodes h4 hreg hlos ht hf
  exact ⟨path, b'', v, s, tokens, hw, h2, e1, e2, e4,
    fileText_back hK hnl hKn htext hproc hdata hreg rfl hf (e3.trans h3)⟩

/-! ### Examples -/

/-- A data file with "Ab b" and a Windows line end, which caps-words processing changes. -/
def someWords : Files :=
  ⟨fun p => if p = "data".toList then some [65, 98, 32, 98, 13, 10] else none, fun _ => true⟩

theorem someWords_data : ∃ out, DataRead aMachine someWords "data".toList none .capsWords
    (utf8Encode ['A', 'b', ' ', 'b', '\r', '\n']) (utf8Encode out) ∧ (utf8Encode out).length ≤ 2 ^ 20 ∧
    Processing.processFile aMachine.db ['A', 'b', ' ', 'b', '\r', '\n'] = .ok out := by
  obtain ⟨out, ho⟩ : ∃ out, Processing.processFile aMachine.db ['A', 'b', ' ', 'b', '\r', '\n'] = .ok out ∧
      (utf8Encode out).length ≤ 2 ^ 20 :=
    ⟨"\x14ab\x16b\x16\n".toList, rfl, by decide⟩
  exact ⟨out, .made (text := ['A', 'b', ' ', 'b', '\r', '\n']) (by decide) rfl ho.1, ho.2, ho.1⟩

theorem data_same {m : Machine} {d : Files} {data : Text} {pr : Option Text} {p : Processing} {raw bytes raw' bytes' : Bytes}
    (hdata : DataRead m d data pr p raw bytes) (h : DataRead m d data pr p raw' bytes') :
    raw' = raw ∧ bytes' = bytes := by
  obtain ⟨f1, a1, a2, a3⟩ := dataRead_iff.1 hdata
  obtain ⟨f2, b1, b2, b3⟩ := dataRead_iff.1 h
  have q1 := Except.ok.inj (a1.symm.trans b1)
  have q2 := Except.ok.inj (a2.symm.trans b2)
  subst q1 q2
  have q3 := Except.ok.inj (a3.symm.trans b3)
  exact ⟨rfl, q3.symm⟩

theorem asciiOnly_known : Restores asciiOnly PlainAscii Char.toUpper ∧ asciiOnly.isAlphabetic '\n' = false ∧
    PlainAscii '\n' :=
  ⟨ascii_restores ⟨fun _ _ => rfl, fun _ _ => rfl, fun _ _ => rfl, fun _ _ => rfl, fun _ _ => rfl⟩,
    rfl, by unfold PlainAscii Ascii; decide⟩

theorem someWords_small (p : Processing) (ty : TokenType) {raw bytes : Bytes}
    (hdata : DataRead aMachine someWords "data".toList none p raw bytes) (h1 : raw.length < 2 ^ 64)
    (h2 : bytes.length < 2 ^ 54) :
    SmallEnough aMachine someWords (.optimize "data".toList none "dir".toList p ty 300 none none) := by
  refine ⟨by decide, ?_⟩
  intro raw' bytes' h
  obtain ⟨rfl, rfl⟩ := data_same hdata h
  exact ⟨h1, h2⟩

-- an optimize on caps-words that succeeds, and the text (with a Unix line end) made from its file
example : ∃ (decode : Bytes → List Nat → Option (List Char)) (ws : List (Text × Bytes)) (path : Text) (b : Bytes)
    (v s : Json) (tokens : List Nat),
    Exec aMachine someWords (.optimize "data".toList none "dir".toList .capsWords .bytesHuff 300 none none)
      (.ok (), ws) ∧
    (writeAll someWords ws).read path = some b ∧ readJson (writeAll someWords ws) path = .ok v ∧
    v.get? "stats" = some s ∧ s.get? "total_tokens" = some (.num (tokens.length : Nat)) ∧
    decode b tokens = some ['A', 'b', ' ', 'b', '\n'] := by
  obtain ⟨out, hdata, hlen, _⟩ := someWords_data
  have hg : StartsGood someWords .capsWords .bytesHuff 300 none := by show 3 ≤ 300; decide
  have hsm := someWords_small .capsWords .bytesHuff hdata (by decide) (by omega)
  obtain ⟨ws, h1⟩ := C125_optimize_exists _ stable_sorts aMachine aMachine_ok someWords "data".toList none
    "dir".toList .capsWords .bytesHuff 300 none hg _ _ hdata (fun _ h => by cases h) (by decide) (fun _ _ => rfl)
  have h := ExecBy.exec stable_sorts h1
  obtain ⟨hK, hnl, hKn⟩ := asciiOnly_known
  obtain ⟨decode, hall⟩ := C138_optimize_text PlainAscii Char.toUpper asciiOnly hK hnl hKn
  obtain ⟨n, path, b, v, s, tokens, _, _, g1, g2, g3, g4, _, g5⟩ := hall aMachine rfl aMachine_ok
    (fun _ _ => .inl rfl) someWords "data".toList none "dir".toList .capsWords .bytesHuff 300 none none hg hsm ws h
    _ _ hdata (fun _ _ h => by cases h) (fun _ => by unfold PlainAscii Ascii; decide) (.inr (.inr (.inl hlen)))
  exact ⟨decode, ws, path, b, v, s, tokens, h, g1, g2, g3, g4, g5⟩

-- the convert of the file that an optimize on caps-words with byte tokens leaves, and the text made from the new file
example : ∃ (d : Files) (path : Text) (decode : Bytes → List Nat → Option (List Char)) (b' : Bytes) (v s : Json)
    (tokens : List Nat), Exec aMachine d (.convert "data".toList none path "dir".toList)
      (.ok (), [(path, b')]) ∧
    readJson (writeAll d [(path, b')]) path = .ok v ∧
    v.get? "stats" = some s ∧ s.get? "total_tokens" = some (.num (tokens.length : Nat)) ∧
    decode b' tokens = some ['A', 'b', ' ', 'b', '\n'] := by
  obtain ⟨out, hdata0, hlen, hout⟩ := someWords_data
  have hg : StartsGood someWords .capsWords .bytes 300 none := by show 256 ≤ 300; decide
  have hsm := someWords_small .capsWords .bytes hdata0 (by decide) (by omega)
  obtain ⟨ws, h1⟩ := C125_optimize_exists _ stable_sorts aMachine aMachine_ok someWords "data".toList none
    "dir".toList .capsWords .bytes 300 none hg _ _ hdata0 (fun _ h => by cases h) (by decide)
    (fun _ _ => rfl)
  have hrun : Running aMachine someWords (.optimize "data".toList none "dir".toList .capsWords .bytes 300 none none) ws :=
    .ended (C125_is_a_run _ stable_sorts _ _ _ _ h1)
  have hdat : (writeAll someWords ws).read "data".toList = someWords.read "data".toList := by
    rw [C58_running_nothing_else aMachine someWords _ ws hrun _ (writeAll_stopped ws _) "data".toList]
    rintro ⟨n, p, ty, e⟩
    have : (fileIn "dir".toList (tokenFile n p ty)).take 2 = ['d', 'i'] := rfl
    rw [← e] at this
    exact absurd this (by decide)
  obtain ⟨st, f, path, k1, k2, _, _, kp, _, k3, kc, kw⟩ := optimize_disk aMachine_ok (fun _ _ => .inl rfl) hg
    (saves_fit_optimize aMachine_ok hg hsm) (ExecBy.exec stable_sorts h1)
  have hseq : st.tokenSet.sequences = [] := by
    rcases k2.family with q | q | q
    · obtain ⟨len, q1, _⟩ := q.params
      rw [k1.type] at q1
      cases q1
    · exact q.noSeq
    · have := q.type
      rw [k1.type] at this
      cases this
  obtain ⟨w, w1, w2⟩ := kw.whole
  have hload : readTokenSet (utf8Encode f.2) = .ok (noFlag st.tokenSet) := by
    rw [w2]
    exact saved_loads aMachine k2.family k1.sorted (.inl k1.type) (.inl w1)
  obtain ⟨tk, htk⟩ := k1.accepted
  obtain ⟨_, t1⟩ := FragmentTokenizer.ok_of_new htk
  have t2 : Tokenizable (noFlag st.tokenSet) := ⟨t1.nodup, t1.nonempty, t1.bytes⟩
  have hreg : Regular (noFlag st.tokenSet) := by
    have q := k1.regular
    exact ⟨q.tokens, q.few, q.required, q.distinct, q.nonempty, q.inRange, q.long⟩
  obtain ⟨sd, hs, _⟩ := file_one (data := utf8Encode out) hlen (validUtf8_encode out)
  obtain ⟨st2, hst2⟩ := sync_exists t2 hreg.inRange sd.samples (some (utf8Encode ['A', 'b', ' ', 'b', '\r', '\n']).length)
  obtain ⟨_, _, _, _, _, sh, _⟩ := sync_inv hreg.inRange hst2
  obtain ⟨x, hx, _⟩ := toJson_stats_ok aMachine (st := st2) (by rw [sh.tokenSet]; exact hreg.inRange)
  have hpath : fileIn "dir".toList (tokenFile (noFlag st.tokenSet).tokens.length (noFlag st.tokenSet).processing
      (noFlag st.tokenSet).tokenType) = path := by
    rw [kp]
    show fileIn _ (tokenFile st.tokenSet.tokens.length st.tokenSet.processing st.tokenSet.tokenType) = _
    rw [k1.processing, k1.type]
  have hproc : (noFlag st.tokenSet).processing = .capsWords := k1.processing
  have hdata : DataRead aMachine (writeAll someWords ws) "data".toList none (noFlag st.tokenSet).processing
      (utf8Encode ['A', 'b', ' ', 'b', '\r', '\n']) (utf8Encode out) := by
    rw [hproc]
    exact .made (hdat.trans (by decide)) rfl hout
  obtain ⟨⟨o, ho⟩, hall⟩ := convert_writes (sort := fun key l => l.mergeSort (fun a b => decide (key a ≤ key b)))
    (dir := "dir".toList) aMachine_ok k3 hload hdata hs hst2 hx (by rw [hpath, writeAll_creatable]; exact kc)
  have e := hall aMachine aMachine_ok rfl rfl o ho
  subst e
  have ho := ExecBy.exec stable_sorts ho
  rw [hpath] at ho
  have hsm2 : SmallEnough aMachine (writeAll someWords ws) (.convert "data".toList none path "dir".toList) := by
    intro b ts raw bytes g1 g2 g3
    have := Option.some.inj (k3.symm.trans g1)
    subst this
    have := Except.ok.inj (hload.symm.trans g2)
    subst this
    obtain ⟨rfl, rfl⟩ := data_same hdata g3
    refine ⟨by decide, ?_, 1, by decide, by omega, ?_⟩
    · exact Nat.lt_of_le_of_lt k1.budget (by decide)
    · intro q hq
      have hq : q ∈ st.tokenSet.sequences := hq
      rw [hseq] at hq
      cases hq
  obtain ⟨hK, hnl, hKn⟩ := asciiOnly_known
  obtain ⟨decode, hall2⟩ := C138_convert_text PlainAscii Char.toUpper asciiOnly hK hnl hKn
  obtain ⟨path', b', v, s, tokens, c1, c2, c3, c4, _, c5⟩ := hall2 aMachine rfl aMachine_ok (fun _ _ => .inl rfl) _ _ _ _ _
    hsm2 _ ho _ _ k3 hload hreg (noFlag_lossless k1.lossless) _ _ hdata
    (fun _ _ h => by cases h) (fun _ => by unfold PlainAscii Ascii; decide)
  have c6 := (List.cons.inj c1).1
  rw [Prod.mk.injEq] at c6
  obtain ⟨c7, c8⟩ := c6
  subst c7 c8
  rw [hproc] at c5
  exact ⟨_, path, decode, _, v, s, tokens, ho, c2, c3, c4, c5⟩

-- a processed file that is what processing makes of the data
example : ∃ (d : Files) (out : List Char),
    DataRead aMachine d "data".toList (some "out".toList) .capsWords
      (utf8Encode ['A', 'b', ' ', 'b', '\r', '\n']) (utf8Encode out) ∧
    ProcessedHolds aMachine d (some "out".toList) .capsWords ['A', 'b', ' ', 'b', '\r', '\n'] := by
  obtain ⟨out, _, _, hout⟩ := someWords_data
  refine ⟨⟨fun p => if p = "data".toList then some [65, 98, 32, 98, 13, 10] else some (utf8Encode out),
    fun _ => true⟩, out, .given (show some _ = some _ from congrArg some (by decide)) rfl rfl, ?_⟩
  intro _ f hf
  have := Option.some.inj hf
  subst this
  exact ⟨out, hout, rfl⟩

end Tokens.Props
