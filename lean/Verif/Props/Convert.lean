import Verif.Props.Disk

/-!
# Property C117: converting a token set again

Read together with `Verif/Spec/Disk.lean` and `Verif/Spec/Loaded.lean`.  `Exec` is the model of the
commands on files (`Verif/Model/Disk.lean`).
-/

namespace Tokens.Props
open Tokens Spec TokenSet Optimize Batch Main Input Disk

set_option linter.unusedVariables false

/-! ### Proofs -/

theorem openFile_congr {d d' : Files} {p : Text} (h : d.read p = d'.read p) : openFile d p = openFile d' p := by
  unfold openFile; rw [h]

theorem openProcessed_congr {d d' : Files} {processed : Option Text} {p : Processing}
    (h : ∀ f, processed = some f → d.read f = d'.read f) : openProcessed d processed p = openProcessed d' processed p := by
  cases processed with
  | none => cases p <;> rfl
  | some f =>
    cases p with
    | raw => rfl
    | capsWords => simp only [openProcessed, openFile_congr (h f rfl)]

theorem attempt_congr {d d' : Files} (h : d.creatable = d'.creatable) (ws : List (Text × Bytes)) (r : R Unit) :
    attempt d ws r = attempt d' ws r := by
  unfold attempt; rw [h]

theorem convertCommand_congr {m : Machine} {raw : Bytes} {file : Option Bytes} {v w : Json}
    (h : fromJson v = fromJson w) {r : R (Text × Text)} (hc : ConvertCommand m raw file v r) :
    ConvertCommand m raw file w r := by
  cases hc with
  | load h1 => exact .load (h ▸ h1)
  | process h1 h2 => exact .process (h ▸ h1) h2
  | tokenize h1 h2 h3 => exact .tokenize (h ▸ h1) h2 h3
  | write h1 h2 h3 => exact .write (h ▸ h1) h2 h3

theorem exec_convert_congr {m : Machine} {d d' : Files} {data : Text} {processed : Option Text} {f f' dir : Text}
    (hdata : d.read data = d'.read data) (hproc : ∀ q, processed = some q → d.read q = d'.read q)
    (hc : d.creatable = d'.creatable) {b b' : Bytes} {ts : TokenSet} (hb : d.read f = some b)
    (hb' : d'.read f' = some b') (ht : readTokenSet b = .ok ts) (ht' : readTokenSet b' = .ok ts)
    {o : R Unit × List (Text × Bytes)} (h : Exec m d (.convert data processed f dir) o) :
    Exec m d' (.convert data processed f' dir) o := by
  obtain ⟨v, g1, g2⟩ := readJson_of hb ht
  obtain ⟨w, k1, k2⟩ := readJson_of hb' ht'
  have e : fromJson v = fromJson w := g2.trans k2.symm
  cases h with
  | convertOpen h =>
    refine .convertOpen ?_
    rcases h with h | h | ⟨v', ts', h1, h2, h3⟩
    · rw [g1] at h; cases h
    · exact .inr (.inl (openFile_congr hdata ▸ h))
    · have := Except.ok.inj (g1.symm.trans h1)
      subst this
      exact .inr (.inr ⟨w, ts', k1, e ▸ h2, openProcessed_congr hproc ▸ h3⟩)
  | convertFail hv hr hp h =>
    have := Except.ok.inj (g1.symm.trans hv)
    subst this
    exact .convertFail k1 (openFile_congr hdata ▸ hr)
      (fun t ht => openProcessed_congr hproc ▸ hp t (e ▸ ht)) (convertCommand_congr e h)
  | convert hv hr hp h =>
    have := Except.ok.inj (g1.symm.trans hv)
    subst this
    rw [attempt_congr hc]
    exact .convert k1 (openFile_congr hdata ▸ hr)
      (fun t ht => openProcessed_congr hproc ▸ hp t (e ▸ ht)) (convertCommand_congr e h)

theorem exec_optimize_congr {m : Machine} {d d' : Files} {data : Text} {processed : Option Text} {dir : Text}
    {p : Processing} {ty : TokenType} {ntokens : Nat} {f f' : Text} {minSize : Option Nat}
    (hdata : d.read data = d'.read data) (hproc : ∀ q, processed = some q → d.read q = d'.read q)
    (hc : d.creatable = d'.creatable) {b b' : Bytes} {ts : TokenSet} (hb : d.read f = some b)
    (hb' : d'.read f' = some b') (ht : readTokenSet b = .ok ts) (ht' : readTokenSet b' = .ok ts)
    {o : R Unit × List (Text × Bytes)}
    (h : Exec m d (.optimize data processed dir p ty ntokens (some f) minSize) o) :
    Exec m d' (.optimize data processed dir p ty ntokens (some f') minSize) o := by
  obtain ⟨v, g1, g2⟩ := readJson_of hb ht
  obtain ⟨w, k1, k2⟩ := readJson_of hb' ht'
  have gi : openInput d (some f) = .ok (some v) := by simp only [openInput, g1, R.ok_bind]
  have ki : openInput d' (some f') = .ok (some w) := by simp only [openInput, k1, R.ok_bind]
  have e : readInput (some v) = readInput (some w) := by
    simp only [readInput, g2, k2]
  cases h with
  | optimizeOpen h =>
    refine .optimizeOpen ?_
    rcases h with h | h | h
    · exact .inl (openFile_congr hdata ▸ h)
    · exact .inr (.inl (openProcessed_congr hproc ▸ h))
    · rw [gi] at h; cases h
  | optimizePrepare hr hp hi h =>
    have := Except.ok.inj (gi.symm.trans hi)
    subst this
    exact .optimizePrepare (openFile_congr hdata ▸ hr) (openProcessed_congr hproc ▸ hp) ki (e ▸ h)
  | optimizeFail hr hp hi hd ht ho h =>
    have := Except.ok.inj (gi.symm.trans hi)
    subst this
    rw [attempt_congr hc]
    exact .optimizeFail (openFile_congr hdata ▸ hr) (openProcessed_congr hproc ▸ hp) ki hd (e ▸ ht) ho h
  | optimize hr hp hi hd ht ho h =>
    have := Except.ok.inj (gi.symm.trans hi)
    subst this
    rw [attempt_congr hc]
    exact .optimize (openFile_congr hdata ▸ hr) (openProcessed_congr hproc ▸ hp) ki hd (e ▸ ht) ho h

/-- What a successful convert writes. -/
theorem convert_written {m : Machine} (hm : MachineOk m) (hr : RatioText m.ratio) {d : Files}
    {data : Text} {processed : Option Text} {inputTokens dir : Text}
    (hsmall : SmallEnough m d (.convert data processed inputTokens dir)) {ws : List (Text × Bytes)}
    (h : Exec m d (.convert data processed inputTokens dir) (.ok (), ws)) {b : Bytes} {ts : TokenSet}
    (hb : d.read inputTokens = some b) (hts : readTokenSet b = .ok ts) :
    ∃ b', ws = [(fileIn dir (tokenFile ts.tokens.length ts.processing ts.tokenType), b')] ∧
      FileOf ts b' ∧ Tokenizable ts ∧ ∃ v, LoadedFrom v ts := by
  obtain ⟨v, g1, g2⟩ := readJson_of hb hts
  have hfit := saves_fit_convert hm hsmall
  generalize ho : (Except.ok (), ws) = o at h
  cases h with
  | convertOpen h => cases ho
  | convertFail hv hr hp h => cases ho
  | @convert _ _ _ _ v' raw file f hv hr' hp hcc =>
    have := Except.ok.inj (g1.symm.trans hv)
    subst this
    obtain ⟨e, _, _⟩ := attempt_ok ho.symm
    have htok : Tokenizable ts := by
      generalize hg : (Except.ok f : R (Text × Text)) = g at hcc
      cases hcc with
      | load => cases hg
      | process => cases hg
      | tokenize => cases hg
      | write h1 h2 h3 =>
        have := Except.ok.inj (g2.symm.trans h1)
        subst this
        have hin := (fromJson_loaded h1).inRange
        cases h3 with
        | ok hs ht =>
          have h3 := C07_tokenize_file _ hin _ _ _ hm.threads _ ht
          obtain ⟨_, _, _, ht, _⟩ := sync_inv hin h3
          exact ht
    obtain ⟨ts', st, k1, k2, k3, k4⟩ := converted (dir := dir) hm hv hr' hp hcc
    have := Except.ok.inj (g2.symm.trans k1)
    subst this
    have hin := (fromJson_loaded k1).inRange
    obtain ⟨n1, n2⟩ := written_stats hr (hfit st k4) (by rw [k2]; exact hin) k3
    rw [k2] at n1 n2
    refine ⟨utf8Encode f.2, ?_, n2.whole, htok, v, fromJson_loaded g2⟩
    rw [e]
    simp only [inDir, List.map_cons, List.map_nil, joinPath_eq]
    rw [n1, tokenFile_name]

/-- A set without the sequences that stand for fewer than two tokens. -/
theorem filtered_json (ts : TokenSet) :
    ({ ts with sequences := ts.sequences.filter (fun q => decide (2 ≤ q.tokens.length)) } : TokenSet).toJson =
      ts.toJson := by
  unfold toJson
  simp only [List.filter_filter]
  have : (fun q : Sequence => decide (q.tokens.length > 1) && decide (2 ≤ q.tokens.length)) =
      fun q => decide (q.tokens.length > 1) := by
    funext q
    by_cases h : 1 < q.tokens.length
    · have h2 : 2 ≤ q.tokens.length := h
      simp [h, h2]
    · simp [h]
  rw [this]

theorem loaded_regular {v : Json} {ts : TokenSet} (h : LoadedFrom v ts) (ht : Tokenizable ts) :
    Regular { ts with sequences := ts.sequences.filter (fun q => decide (2 ≤ q.tokens.length)) } where
  tokens := h.order
  few := h.few
  required := h.required
  distinct := by
    have := ht.nodup
    unfold pieceStrings at this
    exact (List.nodup_append.1 this).1
  nonempty := h.nonempty
  inRange := fun q hq => h.inRange q (List.mem_of_mem_filter hq)
  long := fun q hq => by simpa using (List.mem_filter.1 hq).2

theorem converted_reads {ts : TokenSet} {b' : Bytes} {v : Json} (hl : LoadedFrom v ts) (ht : Tokenizable ts)
    (hf : FileOf ts b')
    (hty : ts.tokenType = .bytes ∨ ts.tokenType = .bytesHuff ∨ ∀ c : UInt8, Token.str [c] ∈ ts.tokens) :
    readTokenSet b' = .ok { ts with
      splitParagraphs := false
      sequences := ts.sequences.filter (fun q => decide (2 ≤ q.tokens.length)) } := by
  obtain ⟨w, w1, w2⟩ := hf
  obtain ⟨u, u1, u2⟩ := C17_roundtrip_partial _ (loaded_regular hl ht) hty
  rw [filtered_json] at u1
  have := Except.ok.inj (u1.symm.trans w1)
  subst this
  rw [w2, u2]

/-! ## C117 -/

/-- **C117**.  A convert command that succeeds, on any file from which a set is read, writes one file, in
the directory given and under the name that belongs to the set.  For types bytes and byteshuff, and for
sets in which every byte has a token, the same tokens, type and processing are read back from that file,
and the same sequences, except that sequences of fewer than two tokens are gone and that the paragraph
flag is off. -/
theorem C117_converted (m : Machine) (hm : MachineOk m) (hr : RatioText m.ratio) (d : Files) (data : Text)
    (processed : Option Text) (inputTokens dir : Text)
    (hsmall : SmallEnough m d (.convert data processed inputTokens dir)) (ws : List (Text × Bytes))
    (h : Exec m d (.convert data processed inputTokens dir) (.ok (), ws)) (b : Bytes) (ts : TokenSet)
    (hb : d.read inputTokens = some b) (hts : readTokenSet b = .ok ts)
    (hty : ts.tokenType = .bytes ∨ ts.tokenType = .bytesHuff ∨ ∀ c : UInt8, Token.str [c] ∈ ts.tokens) :
    ∃ b', ws = [(fileIn dir (tokenFile ts.tokens.length ts.processing ts.tokenType), b')] ∧
      readTokenSet b' = .ok { ts with
        splitParagraphs := false
        sequences := ts.sequences.filter (fun q => decide (2 ≤ q.tokens.length)) } := by
  obtain ⟨b', h1, h2, h3, v, h4⟩ := convert_written hm hr hsmall h hb hts
  exact ⟨b', h1, converted_reads h4 h3 h2 hty⟩

/-- **C117**.  What else is in the input file (statistics, layout, unknown members, the order of the
members) does not matter: two files from which the same set is read are converted with the same
outcomes, -/
theorem C117_only_the_set (m : Machine) (d : Files) (data : Text) (processed : Option Text) (f f' dir : Text)
    (b b' : Bytes) (ts : TokenSet) (hb : d.read f = some b) (hb' : d.read f' = some b')
    (ht : readTokenSet b = .ok ts) (ht' : readTokenSet b' = .ok ts) (o : R Unit × List (Text × Bytes)) :
    Exec m d (.convert data processed f dir) o ↔ Exec m d (.convert data processed f' dir) o :=
  ⟨exec_convert_congr rfl (fun _ _ => rfl) rfl hb hb' ht ht',
    exec_convert_congr rfl (fun _ _ => rfl) rfl hb' hb ht' ht⟩

/-- **C117**.  ... and optimizing from them has the same outcomes. -/
theorem C117_only_the_set_optimize (m : Machine) (d : Files) (data : Text) (processed : Option Text)
    (dir : Text) (p : Processing) (ty : TokenType) (ntokens : Nat) (minSize : Option Nat) (f f' : Text)
    (b b' : Bytes) (ts : TokenSet) (hb : d.read f = some b) (hb' : d.read f' = some b')
    (ht : readTokenSet b = .ok ts) (ht' : readTokenSet b' = .ok ts) (o : R Unit × List (Text × Bytes)) :
    Exec m d (.optimize data processed dir p ty ntokens (some f) minSize) o ↔
      Exec m d (.optimize data processed dir p ty ntokens (some f') minSize) o :=
  ⟨exec_optimize_congr rfl (fun _ _ => rfl) rfl hb hb' ht ht',
    exec_optimize_congr rfl (fun _ _ => rfl) rfl hb' hb ht' ht⟩

/-- **C117**.  Converting what convert has written does, in any directory, exactly what converting the
original did: the same outcomes, and the same bytes written.  (For sets as in `C117_converted` with the
flag off and without sequences of fewer than two tokens, and provided that the new file is not also the
data.) -/
theorem C117_twice (m : Machine) (hm : MachineOk m) (hr : RatioText m.ratio) (d : Files) (data : Text)
    (processed : Option Text) (inputTokens dir : Text)
    (hsmall : SmallEnough m d (.convert data processed inputTokens dir)) (ws : List (Text × Bytes))
    (h : Exec m d (.convert data processed inputTokens dir) (.ok (), ws)) (b : Bytes) (ts : TokenSet)
    (hb : d.read inputTokens = some b) (hts : readTokenSet b = .ok ts)
    (hty : ts.tokenType = .bytes ∨ ts.tokenType = .bytesHuff ∨ ∀ c : UInt8, Token.str [c] ∈ ts.tokens)
    (hflag : ts.splitParagraphs = false) (hlong : ∀ q ∈ ts.sequences, 2 ≤ q.tokens.length)
    (path : Text) (hpath : path = fileIn dir (tokenFile ts.tokens.length ts.processing ts.tokenType))
    (hd : path ≠ data) (hp : processed ≠ some path) (dir' : Text) (o : R Unit × List (Text × Bytes)) :
    Exec m (writeAll d ws) (.convert data processed path dir') o ↔
      Exec m d (.convert data processed inputTokens dir') o := by
  obtain ⟨b', rfl, h2⟩ := C117_converted m hm hr d data processed inputTokens dir hsmall ws h b ts hb hts hty
  rw [← hpath]
  have hfil : ts.sequences.filter (fun q => decide (2 ≤ q.tokens.length)) = ts.sequences :=
    List.filter_eq_self.2 (fun q hq => by simpa using hlong q hq)
  have h3 : readTokenSet b' = .ok ts := by
    rw [h2, hfil, ← hflag]
  have hread : (writeAll d [(path, b')]).read path = some b' := writeAll_last [] d path b'
  have hother : ∀ q, q ≠ path → (writeAll d [(path, b')]).read q = d.read q := fun q hq =>
    writeAll_other _ d q (by simpa using hq.symm)
  have hdat := hother data (Ne.symm hd)
  have hpro : ∀ q, processed = some q → (writeAll d [(path, b')]).read q = d.read q := by
    intro q hq
    refine hother q ?_
    rintro rfl
    exact hp hq
  have hc : (writeAll d [(path, b')]).creatable = d.creatable := writeAll_creatable _ d
  exact ⟨exec_convert_congr hdat hpro hc hread hb h3 hts,
    exec_convert_congr hdat.symm (fun q hq => (hpro q hq).symm) hc.symm hb hread hts h3⟩

/-- **C117** (a deviation).  If some byte has neither a token nor a sequence of two tokens or more (so that
only a sequence of one token, or of none, makes the set usable), then convert succeeds, but the file it
writes is not usable: converting it again never succeeds. -/
theorem C117_short_sequences_lost (m : Machine) (hm : MachineOk m) (hr : RatioText m.ratio) (d : Files)
    (data : Text) (processed : Option Text) (inputTokens dir : Text)
    (hsmall : SmallEnough m d (.convert data processed inputTokens dir)) (ws : List (Text × Bytes))
    (h : Exec m d (.convert data processed inputTokens dir) (.ok (), ws)) (b : Bytes) (ts : TokenSet)
    (hb : d.read inputTokens = some b) (hts : readTokenSet b = .ok ts)
    (hty : ts.tokenType = .bytes ∨ ts.tokenType = .bytesHuff)
    (c : UInt8) (hc : Token.str [c] ∉ ts.tokens)
    (hq : ∀ q ∈ ts.sequences, q.string = [c] → q.tokens.length < 2)
    (path : Text) (hpath : path = fileIn dir (tokenFile ts.tokens.length ts.processing ts.tokenType))
    (data' : Text) (processed' : Option Text) (dir' : Text) (r : R Unit) (ws' : List (Text × Bytes))
    (h' : Exec m (writeAll d ws) (.convert data' processed' path dir') (r, ws')) :
    (∃ e, r = .error e) ∧ ws' = [] := by
  obtain ⟨b', rfl, h2⟩ := C117_converted m hm hr d data processed inputTokens dir hsmall ws h b ts hb hts
    (hty.imp_right .inl)
  rw [← hpath] at h'
  have hread : (writeAll d [(path, b')]).read path = some b' := writeAll_last [] d path b'
  obtain ⟨v, g1, g2⟩ := readJson_of hread h2
  generalize ho : (r, ws') = o at h'
  cases h' with
  | convertOpen h => cases ho; exact ⟨⟨_, rfl⟩, rfl⟩
  | convertFail hv hr hp h => cases ho; exact ⟨⟨_, rfl⟩, rfl⟩
  | @convert _ _ _ _ v' raw file f hv hr' hp hcc =>
    exfalso
    have := Except.ok.inj (g1.symm.trans hv)
    subst this
    generalize hg : (Except.ok f : R (Text × Text)) = g at hcc
    cases hcc with
    | load => cases hg
    | process => cases hg
    | tokenize => cases hg
    | write h1 h2 h3 =>
      have := Except.ok.inj (g2.symm.trans h1)
      subst this
      have hin := (fromJson_loaded h1).inRange
      cases h3 with
      | ok hs ht =>
        have h3 := C07_tokenize_file _ hin _ _ _ hm.threads _ ht
        obtain ⟨_, _, _, ht, _⟩ := sync_inv hin h3
        have := ht.bytes c
        unfold pieceStrings at this
        rcases List.mem_append.1 this with h5 | h5
        · obtain ⟨t, t1, t2⟩ := List.mem_filterMap.1 h5
          cases t with
          | ext n => cases t2
          | str s =>
            have := Option.some.inj t2
            subst this
            exact hc t1
        · obtain ⟨q, q1, q2⟩ := List.mem_map.1 h5
          obtain ⟨q3, q4⟩ := List.mem_filter.1 q1
          have := hq q q3 q2
          have : 2 ≤ q.tokens.length := by simpa using q4
          omega



/-! ### Examples -/

/-- The JSON value of a file that lists these strings as tokens and one sequence, whatever its length. -/
def listedValue (l : List Bytes) (q : Sequence) : Json := .obj [
  ("processing".toList, .str "raw".toList),
  ("sequences".toList, .arr [seqJson (l.map Token.str) q]),
  ("tokens".toList, .arr ((l.map Token.str).map Token.toJson)),
  ("type".toList, .str "bytes".toList)]

theorem listedValue_loads {l : List Bytes} {q : Sequence} (hn : l.Nodup) (hne : ∀ s ∈ l, s ≠ [])
    (hq : ∀ i ∈ q.tokens, i < l.length) :
    fromJson (listedValue l q) = .ok ⟨0, .bytes, .raw, false, l.map .str, [q]⟩ := by
  have e0 : (l.map Token.str).filterMap tokenText = l := by
    rw [List.filterMap_map]
    have : tokenText ∘ Token.str = some := rfl
    rw [this, List.filterMap_some]
  have ec : ∀ l : List Bytes, extCount (l.map Token.str) = 0 := by
    intro l
    induction l with
    | nil => rfl
    | cons s l ih => rw [List.map_cons, extCount]; exact ih
  have e1 : (listedValue l q).index "tokens" = .arr ((l.map Token.str).map Token.toJson) := rfl
  have e2 : parseProcessing (listedValue l q) = .ok .raw := rfl
  have e3 : parseType (listedValue l q) = .ok .bytes := rfl
  have e4 : parseSplit (listedValue l q) = .ok false := rfl
  unfold fromJson
  rw [e1]
  simp only [Json.asArray, unwrapR, R.ok_bind]
  rw [e2]; simp only [R.ok_bind]
  rw [e3]; simp only [R.ok_bind]
  rw [e4]; simp only [R.ok_bind]
  rw [countNumbers, ec, startSet_eq (ty := .bytes) (n := 0) .raw false (by decide)
    (fun m hm => Option.some.inj hm)]
  simp only [R.ok_bind]
  rw [loadTokens_eq, e0, addTokens_eq _ _ hne]
  simp only [R.ok_bind]
  have e5 : (listedValue l q).asObject = some [
      ("processing".toList, .str "raw".toList), ("sequences".toList, .arr [seqJson (l.map Token.str) q]),
      ("tokens".toList, .arr ((l.map Token.str).map Token.toJson)), ("type".toList, .str "bytes".toList)] := rfl
  rw [e5]
  simp only [R.ok_bind]
  have e7 : (List.lookup "sequences".toList [
      ("processing".toList, Json.str "raw".toList), ("sequences".toList, .arr [seqJson (l.map Token.str) q]),
      ("tokens".toList, .arr ((l.map Token.str).map Token.toJson)),
      ("type".toList, .str "bytes".toList)]).isSome = true := rfl
  rw [if_pos e7]
  have e6 : (listedValue l q).index "sequences" = .arr [seqJson (l.map Token.str) q] := rfl
  rw [e6]
  simp only [R.ok_bind]
  have hnd : (l.map Token.str).Nodup := hn.map (fun a b h => Token.str.inj h)
  have := loadSeqs_ok ⟨0, .bytes, .raw, false, l.map .str, []⟩ hnd [q] (by
    intro q' hq' i hi
    rw [List.mem_singleton] at hq'
    subst hq'
    simpa using hq i hi)
  simpa [defaultSeqs, extTokens] using this

theorem listedValue_storable (l : List Bytes) (q : Sequence) : Storable 5 (listedValue l q) := by
  refine .obj _ _ (by simp only [List.map_cons, List.map_nil]; decide) ?_
  intro m hm
  simp only [List.mem_cons, List.not_mem_nil, or_false] at hm
  rcases hm with rfl | rfl | rfl | rfl
  · exact .str _ _
  · refine .arr _ _ ?_
    intro j hj
    rw [List.mem_singleton] at hj
    subst hj
    exact JsonWrite.storable_seq _ q
  · exact JsonWrite.storable_mono (JsonWrite.storable_mono (JsonWrite.storable_tokens _))
  · exact .str _ _



theorem listedValue_reads {l : List Bytes} {q : Sequence} (hn : l.Nodup) (hne : ∀ s ∈ l, s ≠ [])
    (hq : ∀ i ∈ q.tokens, i < l.length) :
    readTokenSet (utf8Encode (listedValue l q).render) = .ok ⟨0, .bytes, .raw, false, l.map .str, [q]⟩ := by
  have hs := listedValue_storable l q
  unfold readTokenSet
  rw [JsonWrite.parseBytes_of (JsonWrite.render_jsonText hs) hs (by decide)]
  exact listedValue_loads hn hne hq

/-- A token for every byte except `a`; the first one is `b`. -/
def noA : List Bytes := [98] :: (allBytes.filter (fun b => decide (b ≠ 97 ∧ b ≠ 98))).map (fun b => [b])

/-- ... and a sequence of `k` times `b` for `a`. -/
def noASet (k : Nat) : TokenSet := ⟨0, .bytes, .raw, false, noA.map .str, [⟨[97], List.replicate k 0⟩]⟩

theorem noA_mem (s : Bytes) : s ∈ noA ↔ ∃ b : UInt8, b ≠ 97 ∧ s = [b] := by
  unfold noA
  simp only [List.mem_cons, List.mem_map, List.mem_filter, decide_eq_true_eq]
  constructor
  · rintro (rfl | ⟨b, ⟨_, h, _⟩, rfl⟩)
    · exact ⟨98, by decide, rfl⟩
    · exact ⟨b, h, rfl⟩
  · rintro ⟨b, h, rfl⟩
    by_cases hb : b = 98
    · exact .inl (by rw [hb])
    · exact .inr ⟨b, ⟨mem_allBytes b, h, hb⟩, rfl⟩

theorem noA_nodup : noA.Nodup := by
  unfold noA
  refine List.nodup_cons.2 ⟨?_, (allBytes_nodup.filter _).map (fun a b h => (List.cons.inj h).1)⟩
  intro h
  obtain ⟨b, h1, h2⟩ := List.mem_map.1 h
  have := of_decide_eq_true (List.mem_filter.1 h1).2
  exact this.2 (List.cons.inj h2).1

theorem noA_tokenizable (k : Nat) : Tokenizable (noASet k) := by
  have e : pieceStrings (noASet k) = noA ++ [[97]] := by
    show ((noA.map Token.str).filterMap tokenText) ++ [[97]] = _
    rw [List.filterMap_map]
    have : tokenText ∘ Token.str = some := rfl
    rw [this, List.filterMap_some]
  refine ⟨?_, ?_, ?_⟩
  · rw [e]
    refine List.nodup_append.2 ⟨noA_nodup, List.nodup_singleton _, ?_⟩
    intro a ha b hb
    rw [List.mem_singleton] at hb
    subst hb
    obtain ⟨c, h1, rfl⟩ := (noA_mem _).1 ha
    intro h
    exact h1 (List.cons.inj h).1
  · rw [e]
    intro s hs
    rcases List.mem_append.1 hs with h | h
    · obtain ⟨c, _, rfl⟩ := (noA_mem _).1 h
      exact List.cons_ne_nil _ _
    · rw [List.mem_singleton.1 h]; exact List.cons_ne_nil _ _
  · intro b
    rw [e]
    by_cases hb : b = 97
    · rw [hb]; exact List.mem_append_right _ (List.mem_singleton.2 rfl)
    · exact List.mem_append_left _ ((noA_mem _).2 ⟨b, hb, rfl⟩)

theorem noA_inRange (k : Nat) : SeqsInRange (noASet k) := by
  intro q hq i hi
  have : q = ⟨[97], List.replicate k 0⟩ := List.mem_singleton.1 hq
  subst this
  have : i = 0 := List.eq_of_mem_replicate hi
  subst this
  show 0 < (noA.map Token.str).length
  simp [noA]

/-- Files: such a set in the file `t`, and three bytes of data. -/
def noAFiles (k : Nat) : Files :=
  ⟨fun p => if p = "t".toList then
      some (utf8Encode (listedValue noA ⟨[97], List.replicate k 0⟩).render) else some [97, 98, 10],
    fun _ => true⟩

theorem noA_reads (k : Nat) :
    readTokenSet (utf8Encode (listedValue noA ⟨[97], List.replicate k 0⟩).render) = .ok (noASet k) := by
  refine listedValue_reads noA_nodup ?_ ?_
  · intro s h
    obtain ⟨c, _, rfl⟩ := (noA_mem _).1 h
    exact List.cons_ne_nil _ _
  · intro i hi
    have : i = 0 := List.eq_of_mem_replicate hi
    subst this
    simp [noA]

theorem noA_length : noA.length = 255 := by decide +kernel

theorem noA_small (k : Nat) (hk : k ≤ 2) :
    SmallEnough aMachine (noAFiles k) (.convert "data".toList none "t".toList "dir".toList) := by
  intro b ts raw bytes g1 g2 g3
  have := Option.some.inj g1
  subst this
  have := Except.ok.inj ((noA_reads k).symm.trans g2)
  subst this
  cases g3 with
  | raw h =>
    have e : raw = [97, 98, 10] := (Option.some.inj h).symm
    subst e
    refine ⟨by decide, ?_, 2, by decide, by decide, ?_⟩
    · show (noA.map Token.str).length < 2 ^ 64
      rw [List.length_map, noA_length]; decide
    · intro q hq
      have : q = ⟨[97], List.replicate k 0⟩ := List.mem_singleton.1 hq
      subst this
      simpa using hk

theorem noA_converts (k : Nat) : ∃ ws, Exec aMachine (noAFiles k)
    (.convert "data".toList none "t".toList "dir".toList) (.ok (), ws) := by
  obtain ⟨v, g1, g2⟩ := readJson_of (d := noAFiles k) (path := "t".toList) rfl (noA_reads k)
  obtain ⟨_, s, hs, _⟩ := C25_ascii_exact_partial [97, 98, 10] (by decide) (2 ^ 24) (by decide) (fun _ => 2 ^ 24)
  obtain ⟨st, ht⟩ := sync_exists (noA_tokenizable k) (noA_inRange k) s (some 3)
  obtain ⟨_, _, _, _, _, hsh, _, _⟩ := sync_inv (noA_inRange k) ht
  obtain ⟨w, _, w2, _⟩ := toJson_stats_ok aMachine (st := st) (by rw [hsh.tokenSet]; exact noA_inRange k)
  have hcc : ConvertCommand aMachine [97, 98, 10] none v (statsFile aMachine st) :=
    .write (data := [97, 98, 10]) g2 rfl (.ok hs (.sync (by
      show 3 < 1 <<< 25
      decide) ht))
  rw [w2] at hcc
  have h := Exec.convert (m := aMachine) (d := noAFiles k) (data := "data".toList) (processed := none)
    (inputTokens := "t".toList) (tokensDir := "dir".toList) g1 rfl (file := none) (fun ts hts => by
      have := Except.ok.inj (g2.symm.trans hts)
      subst this
      rfl) hcc
  rw [attempt, if_pos (by simp [noAFiles])] at h
  exact ⟨_, h⟩

-- the hypotheses of the four theorems are met, for a file with a sequence of two tokens: it is converted
example : ∃ ws b, Exec aMachine (noAFiles 2) (.convert "data".toList none "t".toList "dir".toList) (.ok (), ws) ∧
    SmallEnough aMachine (noAFiles 2) (.convert "data".toList none "t".toList "dir".toList) ∧
    (noAFiles 2).read "t".toList = some b ∧ readTokenSet b = .ok (noASet 2) ∧
    (noASet 2).tokenType = .bytes ∧ (noASet 2).splitParagraphs = false ∧
    (∀ q ∈ (noASet 2).sequences, 2 ≤ q.tokens.length) ∧ (noASet 2).sequences ≠ [] ∧
    fileIn "dir".toList (tokenFile (noASet 2).tokens.length .raw .bytes) ≠ "data".toList := by
  obtain ⟨ws, h⟩ := noA_converts 2
  refine ⟨ws, _, h, noA_small 2 (by decide), rfl, noA_reads 2, rfl, rfl, ?_, List.cons_ne_nil _ _, ?_⟩
  · intro q hq
    have : q = ⟨[97], List.replicate 2 0⟩ := List.mem_singleton.1 hq
    subst this
    decide
  · have e : (noASet 2).tokens.length = 255 := by
      show (noA.map Token.str).length = 255
      rw [List.length_map, noA_length]
    rw [e]
    decide +kernel

-- and for a file with a sequence of one token, which is converted into a file that is of no use
example : ∃ ws b, Exec aMachine (noAFiles 1) (.convert "data".toList none "t".toList "dir".toList) (.ok (), ws) ∧
    SmallEnough aMachine (noAFiles 1) (.convert "data".toList none "t".toList "dir".toList) ∧
    (noAFiles 1).read "t".toList = some b ∧ readTokenSet b = .ok (noASet 1) ∧
    Token.str [97] ∉ (noASet 1).tokens ∧
    ∀ q ∈ (noASet 1).sequences, q.string = [97] → q.tokens.length < 2 := by
  obtain ⟨ws, h⟩ := noA_converts 1
  refine ⟨ws, _, h, noA_small 1 (by decide), rfl, noA_reads 1, ?_, ?_⟩
  · intro hm
    obtain ⟨s, h1, h2⟩ := List.mem_map.1 hm
    obtain ⟨c, h3, h4⟩ := (noA_mem _).1 h1
    have := Token.str.inj h2
    rw [h4] at this
    exact h3 (List.cons.inj this).1
  · intro q hq _
    have : q = ⟨[97], List.replicate 1 0⟩ := List.mem_singleton.1 hq
    subst this
    decide

end Tokens.Props
