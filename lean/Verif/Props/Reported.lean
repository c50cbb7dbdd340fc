import Verif.Spec.Reported
import Verif.Props.SameNumbers

/-!
# Property C135: the numbers in a saved file are right

Read together with `Verif/Spec/Reported.lean` and `Verif/Spec/Disk.lean`.  `Exec` is the model of the commands on
files (`Verif/Model/Disk.lean`); reads may be short, threads, their schedule and the clock are free.
`readJson d path`: the JSON value read from a file.
-/

namespace Tokens.Props
open Tokens Spec TokenSet Optimize Batch Main Input Disk

set_option linter.unusedVariables false

/-! ### Proofs -/

/-- What the JSON of statistics reports. -/
theorem stats_reported (ratio : Nat → Nat → Json) {full : TokenStats} {ts : TokenSet} (hs : SeqsInRange ts)
    {samples : List Bytes} {raw : Nat} (h : tokenizeFileSync ts samples (some raw) = .ok full) {st : TokenStats}
    (he : st.cloneWithoutPairs = full.cloneWithoutPairs) {v : Json} (hv : st.toJson ratio = .ok v) :
    Reported ratio v ts raw samples := by
  obtain ⟨_, hscan, _, seg, hseg, htot⟩ := C05_accounting ts hs samples (some raw) full h
  obtain ⟨_, _, _, _, _, sh, hinit, _⟩ := sync_inv hs h
  have a0 : st.tokenSet = ts := (congrArg TokenStats.tokenSet he).trans sh.tokenSet
  have a1 : st.totalTokens = full.totalTokens := by
    have := congrArg TokenStats.totalTokens he; exact this
  have a2 : st.scannedBytes = full.scannedBytes := by
    have := congrArg TokenStats.scannedBytes he; exact this
  have a3 : st.initialSize = some raw := (congrArg TokenStats.initialSize he).trans hinit
  have hs' : SeqsInRange st.tokenSet := by rw [a0]; exact hs
  unfold TokenStats.toJson at hv
  rw [toJson_eq _ hs'] at hv
  simp only [R.ok_bind, jsonOf] at hv
  let pre : List (Text × Json) := [("processing".toList, .str st.tokenSet.processing.text)] ++
    (if (st.tokenSet.sequences.filter (fun q => decide (q.tokens.length > 1))).isEmpty then []
     else [("sequences".toList, .arr ((st.tokenSet.sequences.filter (fun q => decide (q.tokens.length > 1))).map
        (seqJson st.tokenSet.tokens)))]) ++ [("split_paragraphs".toList, .bool st.tokenSet.splitParagraphs)]
  have hpre : ∀ a ∈ pre, a.1 = "processing".toList ∨ a.1 = "sequences".toList ∨ a.1 = "split_paragraphs".toList := by
    intro a ha
    simp only [pre, List.mem_append, List.mem_cons, List.not_mem_nil, or_false] at ha
    rcases ha with (rfl | ha) | rfl
    · exact .inl rfl
    · split at ha
      · cases ha
      · rw [List.mem_singleton.1 ha]; exact .inr (.inl rfl)
    · exact .inr (.inr rfl)
  have hcut := JsonWrite.cut_tokens pre
      [("type".toList, .str st.tokenSet.tokenType.text)] (.arr (st.tokenSet.tokens.map Token.toJson)) (by
        intro a ha
        rcases hpre a ha with e | e | e <;> rw [e] <;> decide)
  have e : ([("processing".toList, Json.str st.tokenSet.processing.text)] ++
        (if (st.tokenSet.sequences.filter (fun q => decide (q.tokens.length > 1))).isEmpty then []
         else [("sequences".toList, .arr ((st.tokenSet.sequences.filter
            (fun q => decide (q.tokens.length > 1))).map (seqJson st.tokenSet.tokens)))]) ++
        [("split_paragraphs".toList, Json.bool st.tokenSet.splitParagraphs),
         ("tokens".toList, Json.arr (st.tokenSet.tokens.map Token.toJson)),
         ("type".toList, Json.str st.tokenSet.tokenType.text)]) =
        pre ++ ("tokens".toList, .arr (st.tokenSet.tokens.map Token.toJson)) ::
          [("type".toList, .str st.tokenSet.tokenType.text)] := by
      simp only [pre, List.append_assoc]
      rfl
  rw [e, hcut.1, hcut.2, a3] at hv
  have hv := (Except.ok.inj hv).symm
  subst hv
  have hn : ∀ k : String, (k = "stats" ∨ k = "tokens") → ∀ a ∈ pre, a.1 ≠ k.toList := by
    intro k hk a ha
    rcases hk with rfl | rfl <;> rcases hpre a ha with e | e | e <;> rw [e] <;> decide
  refine ⟨⟨st.tokenSet.tokens.map Token.toJson, ?_, ?_⟩, _, lookup_this (hn "stats" (.inl rfl)), ?_, rfl, ?_, st.totalTokens,
    rfl, rfl, seg, hseg, a1.trans htot⟩
  · show List.lookup "tokens".toList _ = _
    have := lookup_this (l1 := pre ++ [("stats".toList, Json.obj ((match some raw with
      | some s => [("bytes_per_token".toList, ratio s st.totalTokens), ("initial_size".toList, .num s)]
      | none => []) ++
    [("ntokens".toList, .num st.ntokens), ("scanned_bytes".toList, .num st.scannedBytes),
     ("total_tokens".toList, .num st.totalTokens)]))]) (l2 := [("type".toList, .str st.tokenSet.tokenType.text)])
      (key := "tokens".toList) (x := .arr (st.tokenSet.tokens.map Token.toJson)) (by
        intro a ha
        rcases List.mem_append.1 ha with ha | ha
        · exact hn "tokens" (.inr rfl) a ha
        · rw [List.mem_singleton.1 ha]; show "stats".toList ≠ "tokens".toList; decide)
    rw [List.append_assoc] at this
    exact this
  · rw [List.length_map, a0]
  · show some (Json.num st.ntokens) = _
    rw [show st.ntokens = st.tokenSet.tokens.length from rfl, a0]
  · show some (Json.num st.scannedBytes) = _
    rw [a2, hscan]

/-- What is written for statistics is read back. -/
theorem stats_read_back {m : Machine} (hr : RatioText m.ratio) {s : TokenStats} {d : Files} {path : Text}
    (hs1 : Fits64 s) (hs2 : SeqsInRange s.tokenSet) {f : Text × Text} (hf : statsFile m s = .ok f)
    (hq : d.read path = some (utf8Encode f.2)) : ∃ x, s.toJson m.ratio = .ok x ∧ readJson d path = .ok x := by
  obtain ⟨v, text, v1, v2, v3⟩ := C52_file_is_json m hr s hs1 hs2
  have e3 : f.2 = text := (congrArg Prod.snd (Except.ok.inj (v2.symm.trans hf))).symm
  refine ⟨v, v1, ?_⟩
  unfold readJson openFile
  rw [hq, e3]
  show unwrapR (JsonRead.parseBytes _) = _
  rw [JsonWrite.parseBytes_of v3
    (JsonWrite.storable_stats hr hs1.ntokens hs1.scanned hs1.total hs1.initial hs2 v1) (by decide)]
  rfl

/-- The statistics that the optimizer returns are those of samples of the whole data. -/
theorem optimized_samples {m : Machine} (hm : MachineOk m) {data : Bytes} {ntokens : Nat} {p : Processing}
    {ty : TokenType} {rawSize : Nat} {input : Option TokenSet} (hi : GoodInput ty p ntokens input)
    {minSize : Option Nat} {st : TokenStats} {saved : List (Text × Text)}
    (h : Optimized m data ntokens p ty rawSize input minSize (.ok st) saved) :
    ∃ slices samples full, slices.flatten = data ∧
      (samples = slices ∨ minSize = none ∧ rawSize < 2 ^ 34 ∧ samples = slices.map fromUtf8Lossy) ∧
      (data.length ≤ 2 ^ 20 → validUtf8 data = true → samples.flatten = data) ∧ SeqsInRange st.tokenSet ∧
      tokenizeFileSync st.tokenSet samples (some rawSize) = .ok full ∧
      st.cloneWithoutPairs = full.cloneWithoutPairs := by
  have h34 : (1 <<< 34 : Nat) = 2 ^ 34 := by decide
  have hcs : CanStart ty p ntokens input := by cases input <;> exact hi
  have hin : SeqsInRange st.tokenSet := ((optimized_good hm hi h).result _ rfl).1.regular.inRange
  have henv : ∀ {env : Env} {w : World}, EnvOk env → OptimizeTokenset env ntokens p ty input (.ok st) w →
      ∃ full, tokenizeFileSync st.tokenSet env.sampler.samples env.initialSize = .ok full ∧
        st.cloneWithoutPairs = full.cloneWithoutPairs := by
    intro env w he ho
    obtain ⟨_, _, full, ⟨ts', h1, h2⟩, h3, h4⟩ := workable_sorted_stuck he hcs ho
    have hw := (optimize_good he hi ho).choose_spec
    have hw2 := Except.ok.inj hw.1
    have hr := (Tokens.Family.usable (sort_family (by rw [hw2]; exact hw.2.2.family) h1)).inRange
    obtain ⟨_, _, _, _, _, sh, _⟩ := sync_inv hr h2
    refine ⟨full, ?_, by rw [h4]; rfl⟩
    rw [← h3, sh.tokenSet]
    exact h2
  generalize hq : (Except.ok st : R TokenStats) = r at h
  cases h with
  | increasing h =>
    subst hq
    rcases C40_result_partial m hm _ _ _ _ _ _ _ hi _ _ h with ⟨st', _, e, k, _⟩ | ⟨_, _, _, e⟩ | e
    · have := Except.ok.inj e
      subst this
      obtain ⟨_, sd, _, k2, k3⟩ := k.stats
      exact ⟨sd.samples, sd.samples, st, k2, .inl rfl, fun _ _ => k2, hin, k3, rfl⟩
    · cases e
    · cases e
  | memoryFail => cases hq
  | fileFail => cases hq
  | memory hz he h =>
    rename_i env _
    subst hq
    obtain ⟨a1, a2, a3⟩ := memoryEnv_inv he
    obtain ⟨full, b1, b2⟩ := henv (Disk.memory_ok hm he) h
    obtain ⟨slices, h1, h2, _⟩ := C23_memory_partition ⟨data, 1 <<< 20⟩ (by decide : 0 < 1 <<< 20)
    have hone : data.length ≤ 2 ^ 20 → validUtf8 data = true → env.sampler.samples.flatten = data := by
      intro hl hv
      rw [memory_one hl hv a1]
      split <;> simp_all
    unfold memorySampler at a1
    rw [h1 _ (by simp), R.ok_bind] at a1
    rw [← Except.ok.inj a1] at b1 hone
    rw [a2] at b1
    exact ⟨slices, _, full, h2, .inr ⟨rfl, by omega, rfl⟩, hone, hin, b1, b2⟩
  | file hz he h =>
    subst hq
    obtain ⟨full, b1, b2⟩ := henv ⟨hm.threads, .inr (fileSampler_facts he).2.1⟩ h
    exact ⟨_, _, full, (fileSampler_facts he).1, .inl rfl, fun _ _ => (fileSampler_facts he).1, hin, b1, b2⟩

/-! ### Theorems -/

/-- **C135** (convert).  A successful convert writes one file; the value read from it reports, for the loaded set,
the size of the data file and the result of tokenizing all of the data, cut into samples. -/
theorem C135_convert_numbers (m : Machine) (hm : MachineOk m) (hr : RatioText m.ratio) (d : Files) (data : Text)
    (processed : Option Text) (inputTokens dir : Text)
    (hsmall : SmallEnough m d (.convert data processed inputTokens dir)) (ws : List (Text × Bytes))
    (h : Exec m d (.convert data processed inputTokens dir) (.ok (), ws)) (b : Bytes) (ts : TokenSet)
    (hb : d.read inputTokens = some b) (hts : readTokenSet b = .ok ts) (raw bytes : Bytes)
    (hdata : DataRead m d data processed ts.processing raw bytes) :
    ∃ path b' v samples, ws = [(path, b')] ∧
      path = fileIn dir (tokenFile ts.tokens.length ts.processing ts.tokenType) ∧
      readJson (writeAll d ws) path = .ok v ∧ samples.flatten = bytes ∧
      Reported m.ratio v ts raw.length samples := by
  obtain ⟨b', hw, _⟩ := convert_written hm hr hsmall h hb hts
  obtain ⟨j, g1, g2⟩ := readJson_of hb hts
  have hin := (fromJson_loaded g2).inRange
  have hfit := saves_fit_convert hm hsmall
  generalize ho : ((.ok (), ws) : R Unit × List (Text × Bytes)) = o at h
  cases h with
  | convertOpen h => rw [Prod.mk.injEq] at ho; cases ho.1
  | convertFail hv hr hp h => rw [Prod.mk.injEq] at ho; cases ho.1
  | @convert _ _ _ _ v raw' file f hv hr' hp h =>
    obtain ⟨e, _, hcr⟩ := attempt_ok ho.symm
    have := Except.ok.inj (g1.symm.trans hv)
    subst this
    generalize hq : (Except.ok f : R (Text × Text)) = q at h
    cases h with
    | load => cases hq
    | process => cases hq
    | tokenize => cases hq
    | @write t dat st k1 k2 k3 =>
      have := Except.ok.inj (g2.symm.trans k1)
      subst this
      obtain ⟨f2, b1, b2, b3⟩ := dataRead_iff.1 hdata
      have q1 := Except.ok.inj (hr'.symm.trans b1)
      have q2 := Except.ok.inj ((hp _ g2).symm.trans b2)
      subst q1; subst q2
      have q3 := Except.ok.inj (k2.symm.trans b3)
      subst q3
      have hsv : Saves m d (.convert data processed inputTokens dir) st := .convert hv hr' k1 (hp _ k1) k2 k3
      generalize hq3 : (Except.ok st : R TokenStats) = r3 at k3
      cases k3 with
      | sampler => cases hq3
      | tokenizer => cases hq3
      | ok hs ht =>
        have := Except.ok.inj hq3
        subst this
        have hsync := C07_tokenize_file _ hin _ _ _ hm.threads _ ht
        obtain ⟨_, _, _, _, _, sh, _⟩ := sync_inv hin hsync
        have hwb : b' = utf8Encode f.2 := by
          have := hw.symm.trans e
          simp only [inDir, List.map_cons, List.map_nil, List.cons.injEq, Prod.mk.injEq] at this
          exact this.1.2
        obtain ⟨x, x1, x2⟩ := stats_read_back (d := writeAll d ws)
          (path := fileIn dir (tokenFile ts.tokens.length ts.processing ts.tokenType)) hr (hfit _ hsv)
          (by rw [sh.tokenSet]; exact hin) hq.symm (by rw [hw, ← hwb]; exact writeAll_last [] d _ b')
        exact ⟨_, b', x, _, hw, rfl, x2, (fileSampler_facts hs).1,
          stats_reported m.ratio hin hsync rfl x1⟩

/-- **C135** (optimize).  If optimize with good input succeeds, then the value read from its last file reports, for
the set in that file, the size of the data file and the result of tokenizing all of the data, cut into samples.
Without --min-size and below 2^34 bytes, what is not text in a sample has been replaced before; nothing is replaced in a
text of at most 2^20 bytes. -/
theorem C135_optimize_numbers (m : Machine) (hm : MachineOk m) (hr : RatioText m.ratio) (d : Files)
    (data : Text) (processed : Option Text) (dir : Text) (p : Processing) (ty : TokenType) (ntokens : Nat)
    (inputTokens : Option Text) (minSize : Option Nat) (hg : StartsGood d p ty ntokens inputTokens)
    (hsmall : SmallEnough m d (.optimize data processed dir p ty ntokens inputTokens minSize))
    (ws : List (Text × Bytes))
    (h : Exec m d (.optimize data processed dir p ty ntokens inputTokens minSize) (.ok (), ws))
    (raw bytes : Bytes) (hdata : DataRead m d data processed p raw bytes) :
    ∃ ts path b v slices samples, ValidSet ty p ntokens ts ∧ path = fileIn dir (tokenFile ts.tokens.length p ty) ∧
      (writeAll d ws).read path = some b ∧ FileOf ts b ∧ readJson (writeAll d ws) path = .ok v ∧
      slices.flatten = bytes ∧
      (samples = slices ∨ minSize = none ∧ raw.length < 2 ^ 34 ∧ samples = slices.map fromUtf8Lossy) ∧
      (bytes.length ≤ 2 ^ 20 → (∃ text, bytes = utf8Encode text) → samples.flatten = bytes) ∧
      Reported m.ratio v ts raw.length samples := by
  have hfit := saves_fit_optimize hm hg hsmall
  generalize ho : ((.ok (), ws) : R Unit × List (Text × Bytes)) = o at h
  cases h with
  | optimizeOpen h => rw [Prod.mk.injEq] at ho; cases ho.1
  | optimizePrepare hr hp hi h => rw [Prod.mk.injEq] at ho; cases ho.1
  | optimizeFail hr hp hi hd ht hopt h => cases (attempt_ok ho.symm).2.1
  | @optimize _ _ _ _ _ _ _ _ raw' file v0 bytes' ts st saved f hr' hp hi hd ht hopt h =>
    obtain ⟨e1, e2⟩ : raw' = raw ∧ bytes' = bytes := by
      obtain ⟨f2, b1, b2, b3⟩ := dataRead_iff.1 hdata
      have q1 := Except.ok.inj (hr'.symm.trans b1)
      have q2 := Except.ok.inj (hp.symm.trans b2)
      subst q1; subst q2
      exact ⟨rfl, Except.ok.inj (hd.symm.trans b3)⟩
    subst e1; subst e2
    obtain ⟨e, _, hcr⟩ := attempt_ok ho.symm
    have hgood := starts_input hg hi ht
    obtain ⟨k1, k2⟩ := (optimized_good hm hgood hopt).result _ rfl
    have hff := hfit _ (.optimize hr' hp hi hd ht hopt)
    have hin := k1.regular.inRange
    obtain ⟨n1, n2⟩ := written_stats hr hff hin h
    have hpath : fileIn dir f.1 = fileIn dir (tokenFile st.tokenSet.tokens.length p ty) := by
      rw [n1, tokenFile_name, k1.processing, k1.type]
    have hw : ws = saved.map (fun f => (fileIn dir f.1, utf8Encode f.2)) ++ [(fileIn dir f.1, utf8Encode f.2)] := by
      rw [e]; simp [inDir, joinPath_eq]
    have hread : (writeAll d ws).read (fileIn dir f.1) = some (utf8Encode f.2) := by
      rw [hw]; exact writeAll_last _ _ _ _
    obtain ⟨x, x1, x2⟩ := stats_read_back hr hff hin h hread
    obtain ⟨slices, samples, full, s1, s2, s6, s3, s4, s5⟩ := optimized_samples hm hgood hopt
    exact ⟨st.tokenSet, _, _, x, slices, samples, k1, hpath, hread, n2.whole, x2, s1, s2,
      fun hl ht => s6 hl (validUtf8_iff.2 ⟨_, ht.choose_spec⟩), stats_reported m.ratio s3 s4 s5 x1⟩

/-! ### Examples -/

-- a convert that succeeds, with a set that has a sequence, and what its file reports
example : ∃ ws path v samples, Exec aMachine (noAFiles 2) (.convert "data".toList none "t".toList "dir".toList)
      (.ok (), ws) ∧
    readJson (writeAll (noAFiles 2) ws) path = .ok v ∧ samples.flatten = [97, 98, 10] ∧
    Reported aMachine.ratio v (noASet 2) 3 samples := by
  obtain ⟨ws, h⟩ := noA_converts 2
  obtain ⟨path, b', v, samples, _, _, h1, h2, h3⟩ := C135_convert_numbers aMachine aMachine_ok
    (fun _ _ => .inl rfl) (noAFiles 2) "data".toList none "t".toList "dir".toList (noA_small 2 (by decide)) ws h _
    (noASet 2) rfl (noA_reads 2) [97, 98, 10] [97, 98, 10] (.raw rfl)
  exact ⟨ws, path, v, samples, h, h1, h2, h3⟩

-- an optimize that succeeds, and what its last file reports
example : ∃ ws ts path v slices samples, Exec aMachine someFiles
      (.optimize "data".toList none "dir".toList .raw .bytes 300 none none) (.ok (), ws) ∧
    readJson (writeAll someFiles ws) path = .ok v ∧ slices.flatten = [97, 98, 10] ∧
    (samples = slices ∨ samples = slices.map fromUtf8Lossy) ∧
    Reported aMachine.ratio v ts 3 samples := by
  have hg := someFiles_start .raw .bytes 300 (by show 256 ≤ 300; decide)
  have hsm := someFiles_small "dir".toList .bytes 300 (by decide) none
  obtain ⟨ws, h1⟩ := C125_optimize_exists _ stable_sorts aMachine aMachine_ok someFiles "data".toList none
    "dir".toList .raw .bytes 300 none hg [97, 98, 10] [97, 98, 10] (.raw rfl) (fun _ h => by cases h) (by decide)
    (fun _ _ => rfl)
  have h := ExecBy.exec stable_sorts h1
  obtain ⟨ts, path, b, v, slices, samples, _, _, _, _, g1, g2, g3, _, g4⟩ := C135_optimize_numbers aMachine aMachine_ok
    (fun _ _ => .inl rfl) someFiles "data".toList none "dir".toList .raw .bytes 300 none none hg hsm ws h
    [97, 98, 10] [97, 98, 10] (.raw rfl)
  exact ⟨ws, ts, path, v, slices, samples, h, g1, g2, g3.imp_right (fun q => q.2.2), g4⟩

end Tokens.Props
