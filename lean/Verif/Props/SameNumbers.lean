import Verif.Proofs.SameNumbers
import Verif.Props.RepeatMain
import Verif.Props.Convert

/-!
# Property C134: converting the result of optimize reports the same numbers

Read together with `Verif/Spec/Disk.lean`.  `ExecBy f` are the runs of convert and optimize in which the
unstable sort is the function `f` and every read of a file fills its buffer unless the file ends (see C125);
threads, their schedule and the clock are free.  `readJson d path`: the JSON value read from a file.
-/

namespace Tokens.Props
open Tokens Spec TokenSet Optimize Batch Main Input Disk

set_option linter.unusedVariables false

/-! ### Proofs -/

theorem lookup_other {l1 l2 : List (Text × Json)} {k key : Text} {x y : Json} (h : k ≠ key) :
    (l1 ++ (key, x) :: l2).lookup k = (l1 ++ (key, y) :: l2).lookup k := by
  induction l1 with
  | nil =>
    have : (k == key) = false := by simpa using h
    simp only [List.nil_append, List.lookup_cons, this]
  | cons a l ih =>
    obtain ⟨a1, a2⟩ := a
    simp only [List.cons_append, List.lookup_cons, ih]

theorem lookup_this {l1 l2 : List (Text × Json)} {key : Text} {x : Json} (h : ∀ a ∈ l1, a.1 ≠ key) :
    (l1 ++ (key, x) :: l2).lookup key = some x := by
  induction l1 with
  | nil => simp
  | cons a l ih =>
    obtain ⟨a1, a2⟩ := a
    have ha : (key == a1) = false := by simpa using (h (a1, a2) (by simp)).symm
    simp only [List.cons_append, List.lookup_cons, ha]
    exact ih (fun c hc => h c (by simp [hc]))

/-- The JSON of statistics is an object, and the flag is one member of it. -/
theorem stats_members (ratio : Nat → Nat → Json) (st : TokenStats) (hs : SeqsInRange st.tokenSet) :
    ∃ l1 l2, (∀ a ∈ l1, a.1 ≠ "split_paragraphs".toList) ∧
      ∀ b, ({ st with tokenSet := flagged st.tokenSet b } : TokenStats).toJson ratio =
        .ok (.obj (l1 ++ ("split_paragraphs".toList, .bool b) :: l2)) := by
  have hs' : ∀ b, SeqsInRange (flagged st.tokenSet b) := fun _ => hs
  let pre : List (Text × Json) := [("processing".toList, .str st.tokenSet.processing.text)] ++
    (if (st.tokenSet.sequences.filter (fun q => decide (q.tokens.length > 1))).isEmpty then []
     else [("sequences".toList, .arr ((st.tokenSet.sequences.filter (fun q => decide (q.tokens.length > 1))).map
        (seqJson st.tokenSet.tokens)))])
  have hpre : ∀ a ∈ pre, a.1 = "processing".toList ∨ a.1 = "sequences".toList := by
    intro a ha
    simp only [pre, List.mem_append, List.mem_cons, List.not_mem_nil, or_false] at ha
    rcases ha with rfl | ha
    · exact .inl rfl
    · split at ha
      · cases ha
      · rw [List.mem_singleton.1 ha]; exact .inr rfl
  let stats : Json := .obj ((match st.initialSize with
      | some s => [("bytes_per_token".toList, ratio s st.totalTokens), ("initial_size".toList, .num s)]
      | none => []) ++
    [("ntokens".toList, .num st.ntokens), ("scanned_bytes".toList, .num st.scannedBytes),
     ("total_tokens".toList, .num st.totalTokens)])
  have key : ∀ b, ({ st with tokenSet := flagged st.tokenSet b } : TokenStats).toJson ratio =
      .ok (.obj (pre ++ ("split_paragraphs".toList, .bool b) :: ("stats".toList, stats) ::
        [("tokens".toList, .arr (st.tokenSet.tokens.map Token.toJson)),
         ("type".toList, .str st.tokenSet.tokenType.text)])) := by
    intro b
    have hcut := JsonWrite.cut_tokens (pre ++ [("split_paragraphs".toList, .bool b)])
      [("type".toList, .str st.tokenSet.tokenType.text)] (.arr (st.tokenSet.tokens.map Token.toJson)) (by
        intro a ha
        rcases List.mem_append.1 ha with ha | ha
        · rcases hpre a ha with e | e <;> rw [e] <;> decide
        · rw [List.mem_singleton.1 ha]
          show ("split_paragraphs".toList != "tokens".toList) = true
          decide)
    unfold TokenStats.toJson
    rw [toJson_eq _ (hs' b)]
    simp only [R.ok_bind, jsonOf]
    have e : ([("processing".toList, Json.str (flagged st.tokenSet b).processing.text)] ++
        (if ((flagged st.tokenSet b).sequences.filter (fun q => decide (q.tokens.length > 1))).isEmpty then []
         else [("sequences".toList, .arr (((flagged st.tokenSet b).sequences.filter
            (fun q => decide (q.tokens.length > 1))).map (seqJson (flagged st.tokenSet b).tokens)))]) ++
        [("split_paragraphs".toList, Json.bool (flagged st.tokenSet b).splitParagraphs),
         ("tokens".toList, Json.arr ((flagged st.tokenSet b).tokens.map Token.toJson)),
         ("type".toList, Json.str (flagged st.tokenSet b).tokenType.text)]) =
        (pre ++ [("split_paragraphs".toList, .bool b)]) ++
          ("tokens".toList, .arr (st.tokenSet.tokens.map Token.toJson)) ::
          [("type".toList, .str st.tokenSet.tokenType.text)] := by
      rw [List.append_assoc pre]
      rfl
    rw [e, hcut.1, hcut.2]
    simp only [List.append_assoc]
    rfl
  refine ⟨pre, _, ?_, key⟩
  intro a ha
  rcases hpre a ha with e | e <;> rw [e] <;> decide

/-- What a convert writes, if the set can be used and the file be read as text. -/
theorem convert_writes {sort : SortFn} {m : Machine} (hm : MachineOk m) {d : Files} {data : Text}
    {processed : Option Text} {path dir : Text} {b : Bytes} {t : TokenSet} (hb : d.read path = some b)
    (ht : readTokenSet b = .ok t) {raw bytes : Bytes} (hdata : DataRead m d data processed t.processing raw bytes)
    {sd : SamplerData} (hs : fileSampler bytes (1 <<< 24) (fun _ => 1 <<< 24) = .ok sd) {st : TokenStats}
    (hst : tokenizeFileSync t sd.samples (some raw.length) = .ok st) {v : Json} (hv : st.toJson m.ratio = .ok v)
    (hc : d.creatable (fileIn dir (tokenFile t.tokens.length t.processing t.tokenType)) = true) :
    (∃ o, ExecBy sort m d (.convert data processed path dir) o) ∧
    ∀ m', MachineOk m' → m'.db = m.db → m'.ratio = m.ratio → ∀ o,
      ExecBy sort m' d (.convert data processed path dir) o →
      o = (.ok (), [(fileIn dir (tokenFile t.tokens.length t.processing t.tokenType), utf8Encode v.render)]) := by
  obtain ⟨j, g3, g4⟩ := readJson_of hb ht
  obtain ⟨file, hr, hp, hd⟩ := dataRead_iff.1 hdata
  have hp' : ∀ t', TokenSet.fromJson j = .ok t' → openProcessed d processed t'.processing = .ok file := by
    intro t' h
    have := Except.ok.inj (g4.symm.trans h)
    subst this
    exact hp
  have hin := (fromJson_loaded g4).inRange
  obtain ⟨_, _, _, htok, _, sh, _⟩ := sync_inv hin hst
  obtain ⟨st', h⟩ := tokenize_exists (env := ⟨sd, some raw.length, m.nthreads⟩)
    ⟨hm.threads, .inr (fileSampler_facts hs).2.1⟩ htok hin
  have hsync := C07_tokenize_file _ hin _ _ _ hm.threads _ h
  have := Except.ok.inj (hsync.symm.trans hst)
  subst this
  have hf : statsFile m st' = .ok (st'.tokenSet.name ++ ".json".toList, v.render) := by
    unfold statsFile
    rw [hv, R.ok_bind]
  have hw : ConvertFull m raw file j (statsFile m st') := .write g4 hd (.ok hs h)
  rw [hf] at hw
  have hex := ExecBy.convert (f := sort) (tokensDir := dir) g3 hr hp' hw
  have hname : inDir dir [(st'.tokenSet.name ++ ".json".toList, v.render)] =
      [(fileIn dir (tokenFile t.tokens.length t.processing t.tokenType), utf8Encode v.render)] := by
    simp only [inDir, List.map_cons, List.map_nil, joinPath_eq, sh.tokenSet]
    rw [tokenFile_name]
  rw [hname, attempt, if_pos (by simp [hc])] at hex
  refine ⟨⟨_, hex⟩, ?_⟩
  intro m' hm' hdb hratio o ho
  obtain ⟨r, ws⟩ := o
  obtain ⟨h1, h2, _⟩ := C125_convert sort m m' hm hm' hdb.symm hratio.symm d data processed path dir _ _ _ _ hex ho
  rw [← h1, h2.1 rfl]

/-! ### Theorems -/

/-- **C134**.  An optimize command for type bytes or byteshuff has succeeded, having counted the whole file
at the end: because it worked on samples (--min-size), or the data has at least 2^34 bytes, or it is text of at
most 2^20 bytes.  Then converting its last file, with the same data, on any number of threads, succeeds and
rewrites this file; in what is read from it every member is as before (the statistics, the tokens, the
sequences, ...) except for the paragraph flag, which is off; and if it was off before, then no byte of the file
changes. -/
theorem C134_same_numbers (sort : SortFn) (hsort : sort.Sorts) (m1 m2 : Machine) (hm1 : MachineOk m1)
    (hm2 : MachineOk m2) (hr : RatioText m1.ratio) (hdb : m2.db = m1.db) (hratio : m2.ratio = m1.ratio)
    (d : Files) (data : Text) (processed : Option Text) (dir : Text) (p : Processing) (ty : TokenType)
    (hty : ty = .bytes ∨ ty = .bytesHuff) (ntokens : Nat) (inputTokens : Option Text) (minSize : Option Nat)
    (hg : StartsGood d p ty ntokens inputTokens)
    (hsmall : SmallEnough m1 d (.optimize data processed dir p ty ntokens inputTokens minSize))
    (ws : List (Text × Bytes))
    (h : ExecBy sort m1 d (.optimize data processed dir p ty ntokens inputTokens minSize) (.ok (), ws))
    (d1 : Files) (hd1 : d1 = writeAll d ws) (raw bytes : Bytes)
    (hdata : DataRead m1 d data processed p raw bytes) (hdata1 : DataRead m1 d1 data processed p raw bytes)
    (hwhole : minSize ≠ none ∨ 2 ^ 34 ≤ raw.length ∨
      (bytes.length ≤ 2 ^ 20 ∧ ∃ text, bytes = utf8Encode text)) :
    ∃ n path b b' v v', path = fileIn dir (tokenFile n p ty) ∧ d1.read path = some b ∧
      readJson d1 path = .ok v ∧
      (∃ o, ExecBy sort m2 d1 (.convert data processed path dir) o) ∧
      (∀ o, ExecBy sort m2 d1 (.convert data processed path dir) o → o = (.ok (), [(path, b')])) ∧
      readJson (writeAll d1 [(path, b')]) path = .ok v' ∧
      (∀ k : String, k ≠ "split_paragraphs" → v'.get? k = v.get? k) ∧
      v'.get? "split_paragraphs" = some (.bool false) ∧
      (v.get? "split_paragraphs" = some (.bool false) → b' = b) := by
  have hfit := saves_fit_optimize hm1 hg hsmall
  generalize ho : ((.ok (), ws) : R Unit × List (Text × Bytes)) = o at h
  cases h with
  | optimizeOpen h => rw [Prod.mk.injEq] at ho; cases ho.1
  | optimizePrepare hr hp hi h => rw [Prod.mk.injEq] at ho; cases ho.1
  | optimizeFail hr hp hi hd ht hopt h => cases (attempt_ok ho.symm).2.1
  | @optimize _ _ _ _ _ _ _ _ raw' file v0 bytes' ts st saved f hr' hp hi hd ht hopt h =>
    obtain ⟨e1, e2⟩ : raw' = raw ∧ bytes' = bytes := by
      obtain ⟨f2, b1, b2, b3⟩ := dataRead_iff.1 hdata
      have q1 := Except.ok.inj (hr'.symm.trans b1)
      have q2 := Except.ok.inj (hp.symm.trans b2)
      subst q1; subst q2
      exact ⟨rfl, Except.ok.inj (hd.symm.trans b3)⟩
    subst e1; subst e2
    obtain ⟨e, _, hcr⟩ := attempt_ok ho.symm
    have hgood := starts_input hg hi ht
    obtain ⟨k1, k2⟩ := (optimized_good hm1 hgood (OptimizedBy.optimized hsort hopt)).result _ rfl
    have hff := hfit _ (.optimize hr' hp hi hd ht (OptimizedBy.optimized hsort hopt))
    have hin := k1.regular.inRange
    obtain ⟨sd, full, o1, o2, o3⟩ := optimized_ofFile hsort hm1 hgood (hwhole.imp_right
      (Or.imp_right (fun q => ⟨q.1, validUtf8_iff.2 ⟨_, q.2.choose_spec⟩⟩))) hopt
    -- the last file
    obtain ⟨n1, n2⟩ := written_stats hr hff hin h
    have hpath : fileIn dir f.1 = fileIn dir (tokenFile st.tokenSet.tokens.length p ty) := by
      rw [n1, tokenFile_name, k1.processing, k1.type]
    have hw : ws = saved.map (fun f => (fileIn dir f.1, utf8Encode f.2)) ++ [(fileIn dir f.1, utf8Encode f.2)] := by
      rw [e]; simp [inDir, joinPath_eq]
    have hread : d1.read (fileIn dir f.1) = some (utf8Encode f.2) := by rw [hd1, hw]; exact writeAll_last _ _ _ _
    have hcreat : d1.creatable (fileIn dir f.1) = true := by
      rw [hd1, writeAll_creatable]
      exact hcr (fileIn dir f.1, utf8Encode f.2) (by rw [← e, hw]; simp)
    obtain ⟨l1, l2, hl, hj⟩ := stats_members m1.ratio st hin
    have hjv := hj st.tokenSet.splitParagraphs
    have hself : ({ st with tokenSet := flagged st.tokenSet st.tokenSet.splitParagraphs } : TokenStats) = st := rfl
    rw [hself] at hjv
    have hf2 : f.2 = Json.render (.obj (l1 ++ ("split_paragraphs".toList, .bool st.tokenSet.splitParagraphs) :: l2)) := by
      have h' := h
      unfold statsFile at h'
      rw [hjv, R.ok_bind] at h'
      rw [← Except.ok.inj h']
    -- the set read from it
    have hty' : st.tokenSet.tokenType = .bytes ∨ st.tokenSet.tokenType = .bytesHuff ∨
        ∀ b : UInt8, Token.str [b] ∈ st.tokenSet.tokens := by rw [k1.type]; tauto
    have hload : readTokenSet (utf8Encode f.2) = .ok (flagged st.tokenSet false) := by
      obtain ⟨w, w1, w2⟩ := n2.whole
      rw [w2]
      exact saved_loads m1 k2.family k1.sorted hty' (.inl w1)
    -- its statistics
    have hst2 := sync_flag hin o2 false
    have hv2 : ({ full with tokenSet := flagged st.tokenSet false } : TokenStats).toJson m1.ratio =
        .ok (.obj (l1 ++ ("split_paragraphs".toList, .bool false) :: l2)) := by
      have a1 : full.totalTokens = st.totalTokens := (congrArg TokenStats.totalTokens o3).symm
      have a2 : full.scannedBytes = st.scannedBytes := (congrArg TokenStats.scannedBytes o3).symm
      have a3 : full.initialSize = st.initialSize := (congrArg TokenStats.initialSize o3).symm
      rw [← hj false]
      unfold TokenStats.toJson
      simp only [a1, a2, a3]
      rfl
    have hm2r : ∀ {st : TokenStats}, st.toJson m2.ratio = st.toJson m1.ratio := by rw [hratio]; exact rfl
    have hdata2 : DataRead m2 d1 data processed (flagged st.tokenSet false).processing raw' bytes' := by
      have : (flagged st.tokenSet false).processing = p := k1.processing
      rw [this]
      obtain ⟨f2, b1, b2, b3⟩ := dataRead_iff.1 hdata1
      refine dataRead_iff.2 ⟨f2, b1, b2, ?_⟩
      rw [← b3]; unfold maybeProcessFile; rw [hdb]
    have hn2 : fileIn dir (tokenFile (flagged st.tokenSet false).tokens.length (flagged st.tokenSet false).processing
        (flagged st.tokenSet false).tokenType) = fileIn dir f.1 := by
      rw [hpath, ← k1.processing, ← k1.type]
    obtain ⟨c1, c2⟩ := convert_writes (sort := sort) (dir := dir) hm2 hread hload hdata2 o1 hst2
      (by rw [hm2r]; exact hv2) (by rw [hn2]; exact hcreat)
    rw [hn2] at c2
    -- reading it back
    have hback : ∀ (s : TokenStats) (x : Json) (dd : Files) (q : Text), Fits64 s → SeqsInRange s.tokenSet →
        s.toJson m1.ratio = .ok x → dd.read q = some (utf8Encode x.render) → readJson dd q = .ok x := by
      intro s x dd q hs1 hs2 hx hq
      obtain ⟨v, text, v1, v2, v3⟩ := C52_file_is_json m1 hr s hs1 hs2
      have := Except.ok.inj (v1.symm.trans hx)
      subst this
      have e3 : text = v.render := by
        unfold statsFile at v2
        rw [v1, R.ok_bind] at v2
        exact (congrArg Prod.snd (Except.ok.inj v2)).symm
      subst e3
      unfold readJson openFile
      rw [hq]
      show unwrapR (JsonRead.parseBytes _) = _
      rw [JsonWrite.parseBytes_of v3
        (JsonWrite.storable_stats hr hs1.ntokens hs1.scanned hs1.total hs1.initial hs2 v1) (by decide)]
      rfl
    have ho2 : full.totalTokens = st.totalTokens := (congrArg TokenStats.totalTokens o3).symm
    have ho3 : full.scannedBytes = st.scannedBytes := (congrArg TokenStats.scannedBytes o3).symm
    have ho4 : full.initialSize = st.initialSize := (congrArg TokenStats.initialSize o3).symm
    refine ⟨st.tokenSet.tokens.length, fileIn dir f.1, utf8Encode f.2, _, _,
      .obj (l1 ++ ("split_paragraphs".toList, .bool false) :: l2), hpath, hread,
      hback st _ d1 _ hff hin hjv (by rw [hread, hf2]), c1, fun o ho => c2 m2 hm2 rfl rfl o ho, ?_, ?_, ?_, ?_⟩
    · refine hback { full with tokenSet := flagged st.tokenSet false } _ _ _
        ⟨hff.ntokens, ?_, ?_, ?_⟩ hin hv2 (writeAll_last [] d1 _ _)
      · show full.scannedBytes < _; rw [ho3]; exact hff.scanned
      · show full.totalTokens < _; rw [ho2]; exact hff.total
      · show ∀ n, full.initialSize = some n → _; rw [ho4]; exact hff.initial
    · intro k hk
      exact lookup_other (fun e => hk (String.toList_injective e))
    · exact lookup_this hl
    · intro hfl
      have := lookup_this (l2 := l2) (x := .bool st.tokenSet.splitParagraphs) hl
      have := Option.some.inj (this.symm.trans hfl)
      rw [hf2, this]

/-- **C134** (and then nothing changes).  A convert has succeeded, on a set of type bytes or byteshuff (or with a
token for every byte) read with the flag off and without sequences of fewer than two tokens.  Converting the file
that it wrote, into the same directory and with the same data, on any number of threads, succeeds and writes the
same bytes to the same file: from then on no file changes. -/
theorem C134_fixed_point (sort : SortFn) (hsort : sort.Sorts) (m1 m2 : Machine) (hm1 : MachineOk m1)
    (hm2 : MachineOk m2) (hr : RatioText m1.ratio) (hdb : m2.db = m1.db) (hratio : m2.ratio = m1.ratio)
    (d : Files) (data : Text) (processed : Option Text) (inputTokens dir : Text)
    (hsmall : SmallEnough m1 d (.convert data processed inputTokens dir)) (ws : List (Text × Bytes))
    (h : ExecBy sort m1 d (.convert data processed inputTokens dir) (.ok (), ws)) (b : Bytes) (ts : TokenSet)
    (hb : d.read inputTokens = some b) (hts : readTokenSet b = .ok ts)
    (hty : ts.tokenType = .bytes ∨ ts.tokenType = .bytesHuff ∨ ∀ c : UInt8, Token.str [c] ∈ ts.tokens)
    (hflag : ts.splitParagraphs = false) (hlong : ∀ q ∈ ts.sequences, 2 ≤ q.tokens.length)
    (raw bytes : Bytes) (hdata : DataRead m1 d data processed ts.processing raw bytes)
    (hdata1 : DataRead m1 (writeAll d ws) data processed ts.processing raw bytes) :
    ∃ path b', ws = [(path, b')] ∧
      (∃ o, ExecBy sort m2 (writeAll d ws) (.convert data processed path dir) o) ∧
      (∀ o, ExecBy sort m2 (writeAll d ws) (.convert data processed path dir) o → o = (.ok (), ws)) ∧
      ∀ q, (writeAll (writeAll d ws) ws).read q = (writeAll d ws).read q := by
  obtain ⟨b', hw, h2⟩ := C117_converted m1 hm1 hr d data processed inputTokens dir hsmall ws (ExecBy.exec hsort h) b ts
    hb hts hty
  have hfil : ts.sequences.filter (fun q => decide (2 ≤ q.tokens.length)) = ts.sequences :=
    List.filter_eq_self.2 (fun q hq => by simpa using hlong q hq)
  have h3 : readTokenSet b' = .ok ts := by rw [h2, hfil, ← hflag]
  obtain ⟨j, g1, g2⟩ := readJson_of hb hts
  have hin := (fromJson_loaded g2).inRange
  generalize ho : ((.ok (), ws) : R Unit × List (Text × Bytes)) = o at h
  cases h with
  | convertOpen h => rw [Prod.mk.injEq] at ho; cases ho.1
  | convertFail hv hr hp h => rw [Prod.mk.injEq] at ho; cases ho.1
  | @convert _ _ _ _ v raw' file f hv hr' hp h =>
    obtain ⟨e, _, hcr⟩ := attempt_ok ho.symm
    have := Except.ok.inj (g1.symm.trans hv)
    subst this
    generalize hq : (Except.ok f : R (Text × Text)) = q at h
    cases h with
    | load => cases hq
    | process => cases hq
    | tokenize => cases hq
    | @write t dat st k1 k2 k3 =>
      have := Except.ok.inj (g2.symm.trans k1)
      subst this
      obtain ⟨f2, b1, b2, b3⟩ := dataRead_iff.1 hdata
      have q1 := Except.ok.inj (hr'.symm.trans b1)
      have q2 := Except.ok.inj ((hp _ g2).symm.trans b2)
      subst q1; subst q2
      have q3 := Except.ok.inj (k2.symm.trans b3)
      subst q3
      generalize hq3 : (Except.ok st : R TokenStats) = r3 at k3
      cases k3 with
      | sampler => cases hq3
      | tokenizer => cases hq3
      | @ok sd st2 hs ht =>
        have := Except.ok.inj hq3
        subst this
        have hsync := C07_tokenize_file _ hin _ _ _ hm1.threads _ ht
        obtain ⟨j2, _, hj, _⟩ := C17_stats_file m1.ratio st (by
          obtain ⟨_, _, _, _, _, sh, _⟩ := sync_inv hin hsync
          rw [sh.tokenSet]; exact hin)
        have hf : f.2 = j2.render := by
          unfold statsFile at hq
          rw [hj, R.ok_bind] at hq
          rw [Except.ok.inj hq]
        have hwb : b' = utf8Encode j2.render := by
          have := hw.symm.trans e
          simp only [inDir, List.map_cons, List.map_nil, List.cons.injEq, Prod.mk.injEq] at this
          rw [this.1.2, hf]
        have hcreat : (writeAll d ws).creatable
            (fileIn dir (tokenFile ts.tokens.length ts.processing ts.tokenType)) = true := by
          rw [writeAll_creatable]
          rw [← e, hw] at hcr
          exact hcr _ (List.mem_singleton.2 rfl)
        have hread : (writeAll d ws).read (fileIn dir (tokenFile ts.tokens.length ts.processing ts.tokenType)) =
            some b' := by rw [hw]; exact writeAll_last [] d _ b'
        have hdata2 : DataRead m2 (writeAll d ws) data processed ts.processing raw' dat := by
          obtain ⟨f2, b1, b2, b3⟩ := dataRead_iff.1 hdata1
          refine dataRead_iff.2 ⟨f2, b1, b2, ?_⟩
          rw [← b3]; unfold maybeProcessFile; rw [hdb]
        obtain ⟨c1, c2⟩ := convert_writes (sort := sort) (dir := dir) hm2 hread h3 hdata2 hs hsync
          (by rw [hratio]; exact hj) hcreat
        refine ⟨_, b', hw, c1, ?_, ?_⟩
        · intro o2 ho2
          rw [c2 m2 hm2 rfl rfl o2 ho2, ← ho, hw, hwb]
        · intro q
          rw [hw]
          by_cases hqp : q = fileIn dir (tokenFile ts.tokens.length ts.processing ts.tokenType)
          · subst hqp
            exact (writeAll_last [] _ _ b').trans (writeAll_last [] d _ b').symm
          · exact writeAll_other _ _ _ (by simpa using fun e => hqp e.symm)

/-! ### Examples -/

-- optimize a small text with four threads, convert the result with one
example : ∃ ws n b', ExecBy (fun key l => l.mergeSort (fun a b => decide (key a ≤ key b))) aMachine someFiles
      (.optimize "data".toList none "dir".toList .raw .bytes 300 none none) (.ok (), ws) ∧
    (∃ o, ExecBy (fun key l => l.mergeSort (fun a b => decide (key a ≤ key b))) { aMachine with nthreads := 1 }
      (writeAll someFiles ws) (.convert "data".toList none (fileIn "dir".toList (tokenFile n .raw .bytes))
        "dir".toList) o ∧
      o = (.ok (), [(fileIn "dir".toList (tokenFile n .raw .bytes), b')])) := by
  have hg := someFiles_start .raw .bytes 300 (by show 256 ≤ 300; decide)
  have hsm := someFiles_small "dir".toList .bytes 300 (by decide) none
  obtain ⟨ws, h1⟩ := C125_optimize_exists _ stable_sorts aMachine aMachine_ok someFiles "data".toList none
    "dir".toList .raw .bytes 300 none hg [97, 98, 10] [97, 98, 10] (.raw rfl) (fun _ h => by cases h) (by decide)
    (fun _ _ => rfl)
  have hrun : Running aMachine someFiles (.optimize "data".toList none "dir".toList .raw .bytes 300 none none) ws :=
    .ended (C125_is_a_run _ stable_sorts _ _ _ _ h1)
  have hdat : (writeAll someFiles ws).read "data".toList = some [97, 98, 10] := by
    rw [C58_running_nothing_else aMachine someFiles _ ws hrun _ (writeAll_stopped ws _) "data".toList]
    · rfl
    · rintro ⟨n, p, ty, e⟩
      have : (fileIn "dir".toList (tokenFile n p ty)).take 2 = ['d', 'i'] := rfl
      rw [← e] at this
      exact absurd this (by decide)
  obtain ⟨n, path, b, b', v, v', rfl, _, _, ⟨o, ho⟩, hall, _⟩ := C134_same_numbers _ stable_sorts aMachine
    { aMachine with nthreads := 1 } aMachine_ok ⟨by decide⟩ (fun _ _ => .inl rfl) rfl rfl someFiles "data".toList none
    "dir".toList .raw .bytes (.inl rfl) 300 none none hg hsm ws h1 _ rfl [97, 98, 10] [97, 98, 10] (.raw rfl)
    (.raw hdat) (.inr (.inr ⟨by decide, ['a', 'b', '\n'], by decide⟩))
  exact ⟨ws, n, b', h1, o, ho, hall o ho⟩

end Tokens.Props
