import Verif.Props.Pipeline
import Verif.Props.Disk

/-!
# C133: the saved file and the tokens are enough

C74 has a decoder for each token set.  Here there is one decoder, which is given the bytes of a saved file.
-/

namespace Tokens.Props
open Tokens Spec TokenSet Batch Processing Input Optimize Main Disk

set_option linter.unusedVariables false

/-- The set without the paragraph flag, which a file does not keep. -/
def noFlag (ts : TokenSet) : TokenSet := { ts with splitParagraphs := false }

theorem noFlag_string (ts : TokenSet) (p : Piece) : p.string (noFlag ts) = p.string ts := by
  cases p <;> rfl

theorem noFlag_spells {ts : TokenSet} {ps : List Piece} {t : Bytes} (h : Spells ts ps t) :
    Spells (noFlag ts) ps t := by
  induction h with
  | nil => exact .nil
  | cons hp _ ih => exact .cons (by rw [noFlag_string]; exact hp) ih

theorem noFlag_output (ts : TokenSet) (ps : List Piece) : output (noFlag ts) ps = output ts ps := by
  unfold output
  refine congrArg (ps.flatMap ·) (funext fun p => ?_)
  cases p <;> rfl

theorem noFlag_lossless {ts : TokenSet} (h : Lossless ts) : Lossless (noFlag ts) := by
  obtain ⟨dec, hd⟩ := h
  refine ⟨dec, fun ps text hs => ?_⟩
  have : Spells ts ps text := by
    clear hd
    induction hs with
    | nil => exact .nil
    | cons hp _ ih => exact .cons (by rw [← noFlag_string]; exact hp) ih
  have e := hd ps text this
  unfold tokensOut at e ⊢
  rw [noFlag_output]
  exact e

theorem fileOf_read {ts : TokenSet} (hr : Regular ts) {b : Bytes} (h : FileOf ts b) :
    readTokenSet b = .ok { ts with
      splitParagraphs := false,
      sequences := (defaultSeqs ts.tokenType).filter (fun q => !(strTokens ts).contains q.string) ++ ts.sequences } := by
  obtain ⟨v, h1, h2⟩ := h
  rw [toJson_eq ts hr.inRange] at h1
  rw [h2, ← Except.ok.inj h1, fromJson_jsonOf hr]

theorem file_determines {ts ts' : TokenSet} (hr : Regular ts) (hr' : Regular ts') {b : Bytes}
    (h : FileOf ts b) (h' : FileOf ts' b) : noFlag ts = noFlag ts' := by
  have e := Except.ok.inj ((fileOf_read hr h).symm.trans (fileOf_read hr' h'))
  have g1 := congrArg TokenSet.nExt e
  have g2 := congrArg TokenSet.tokenType e
  have g3 := congrArg TokenSet.processing e
  have g5 := congrArg TokenSet.tokens e
  have g6 := congrArg TokenSet.sequences e
  dsimp only at g1 g2 g3 g5 g6
  have hs : strTokens ts = strTokens ts' := by unfold strTokens; rw [g5]
  rw [g2, hs] at g6
  have g7 := List.append_cancel_left g6
  clear g6 hs e h h' hr hr'
  obtain ⟨a1, a2, a3, a4, a5, a6⟩ := ts
  obtain ⟨b1, b2, b3, b4, b5, b6⟩ := ts'
  dsimp only at g1 g2 g3 g5 g7
  subst g1 g2 g3 g5 g7
  rfl

/-- **C133**.  A file determines the token set that was saved in it, up to the paragraph flag: two sets that
are saved in files with the same bytes have the same type, processing, tokens and sequences. -/
theorem C133_file_determines_set (ts ts' : TokenSet) (hr : Regular ts) (hr' : Regular ts') (b : Bytes)
    (h : FileOf ts b) (h' : FileOf ts' b) :
    ts'.tokenType = ts.tokenType ∧ ts'.processing = ts.processing ∧ ts'.tokens = ts.tokens ∧
      ts'.sequences = ts.sequences := by
  have e := file_determines hr hr' h h'
  exact ⟨(congrArg TokenSet.tokenType e).symm, (congrArg TokenSet.processing e).symm,
    (congrArg TokenSet.tokens e).symm, (congrArg TokenSet.sequences e).symm⟩

theorem lossless_counts {ts : TokenSet} (hseq : SeqsInRange ts) {dec : List (Option Token) → Bytes}
    (hdec : ∀ ps text, Spells ts ps text → dec (tokensOut ts ps) = text) {samples : List Bytes}
    {n : Option Nat} {st : TokenStats} (hrun : tokenizeFileSync ts samples n = .ok st) :
    ∃ tokens : List Nat, (∀ i, st.tokenCounts.getD i 0 = tokens.count i) ∧
      st.totalTokens = tokens.length ∧ dec (tokens.map (ts.tokens[·]?)) = samples.flatten := by
  cases hnew : FragmentTokenizer.new ts with
  | error e => unfold tokenizeFileSync at hrun; rw [hnew] at hrun; simp [bind, Except.bind] at hrun
  | ok tk =>
  obtain ⟨d, hw⟩ := exists_work hnew hseq
  obtain ⟨st', h1, h2, _, h3⟩ := sync_ok hnew hw samples n
  rw [hrun] at h1
  have h1 := Except.ok.inj h1
  subst h1
  obtain ⟨seg, hseg⟩ : ∃ seg : Bytes → List Piece,
      ∀ x, LongestLast ts (seg x) x ∧ d x = segCount ts (seg x) x.length :=
    ⟨fun x => Classical.choose (hw.seg x), fun x => Classical.choose_spec (hw.seg x)⟩
  have hopt : ∀ x, Optimal ts x (seg x) := fun x => (hseg x).1.optimal
  have hjoin := join_spells seg samples (fun x _ => hopt x)
  have hout : samples.flatMap (fun x => output ts (seg x)) = output ts (samples.flatMap seg) := by
    unfold output; rw [List.flatMap_assoc]
  refine ⟨samples.flatMap (fun x => output ts (seg x)), ?_, ?_, ?_⟩
  · intro i
    have := h3 (.tok i)
    simp only [cnt] at this
    rw [this]
    clear this h3 hrun hjoin hout
    induction samples with
    | nil => simp
    | cons x xs ih =>
      rw [workSum_cons, List.flatMap_cons, List.count_append, ih, (hseg x).2]
      congr 1
      simp only [segCount]
      split
      · rfl
      · rename_i hi
        symm
        rw [List.count_eq_zero]
        intro hm
        exact hi (spells_output_lt hseq (hopt x).1 i hm)
  · have := h3 .total
    simp only [cnt] at this
    rw [this, hout, hjoin.2]
    unfold workSum
    congr 1
    apply List.map_congr_left
    intro x _
    rw [(hseg x).2]; rfl
  · show dec _ = _
    rw [hout]
    exact hdec _ _ hjoin.1

/-- One decoder for every set whose file this is. -/
theorem file_decoder (b : Bytes) : ∃ dec : List Nat → Bytes, ∀ ts, Regular ts → Lossless ts → FileOf ts b →
    ∃ d : List (Option Token) → Bytes, (∀ ps text, Spells ts ps text → d (tokensOut ts ps) = text) ∧
      ∀ l, dec l = d (l.map (ts.tokens[·]?)) := by
  by_cases h : ∃ ts, Regular ts ∧ Lossless ts ∧ FileOf ts b
  · obtain ⟨t0, k1, k2, k3⟩ := h
    obtain ⟨d, hd⟩ := noFlag_lossless k2
    refine ⟨fun l => d (l.map (t0.tokens[·]?)), fun ts hr hl hb => ?_⟩
    have e := file_determines k1 hr k3 hb
    have et : (noFlag t0).tokens = (noFlag ts).tokens := by rw [e]
    rw [e] at hd
    refine ⟨d, fun ps text hs => ?_, fun l => by show d (l.map ((noFlag t0).tokens[·]?)) = _; rw [et]; rfl⟩
    have := hd ps text (noFlag_spells hs)
    unfold tokensOut at this ⊢
    rw [noFlag_output] at this
    exact this
  · exact ⟨fun _ => [], fun ts hr hl hb => absurd ⟨ts, hr, hl, hb⟩ h⟩

/-- The decoder of a file. -/
noncomputable def fileDecode (b : Bytes) : List Nat → Bytes := Classical.choose (file_decoder b)

theorem fileDecode_counts {ts : TokenSet} (hr : Regular ts) (hl : Lossless ts) {b : Bytes} (hb : FileOf ts b)
    {samples : List Bytes} {n : Option Nat} {st : TokenStats}
    (hrun : tokenizeFileSync ts samples n = .ok st) :
    ∃ tokens : List Nat, (∀ i, st.tokenCounts.getD i 0 = tokens.count i) ∧
      st.totalTokens = tokens.length ∧ fileDecode b tokens = samples.flatten := by
  obtain ⟨d, hd, he⟩ := Classical.choose_spec (file_decoder b) ts hr hl hb
  obtain ⟨tokens, t1, t2, t3⟩ := lossless_counts hr.inRange hd hrun
  exact ⟨tokens, t1, t2, (he tokens).trans t3⟩

/-- **C133**.  There is one decoder for all token sets: from the bytes of the file in which a set was
saved, and the tokens that are counted when data are tokenized with the set on any number of threads, it
makes the data. -/
theorem C133_file_is_enough :
    ∃ decode : Bytes → List Nat → Bytes, ∀ (ts : TokenSet) (b : Bytes), Regular ts → Lossless ts →
      FileOf ts b → ∀ (sampler : SamplerData) (n : Option Nat) (nthreads : Nat) (st : TokenStats),
      0 < nthreads → TokenizeFile ts sampler n nthreads st →
      ∃ tokens : List Nat, (∀ i, st.tokenCounts.getD i 0 = tokens.count i) ∧
        st.totalTokens = tokens.length ∧ decode b tokens = sampler.samples.flatten :=
  ⟨fileDecode, fun _ _ hr hl hb _ _ _ _ hN hst =>
    fileDecode_counts hr hl hb (C07_tokenize_file _ hr.inRange _ _ _ hN _ hst)⟩

-- a set with tokens of several bytes and codes, its file, and samples that are tokenized with it
example : ∃ b, Regular Example.grown ∧ Lossless Example.grown ∧ FileOf Example.grown b ∧
    Example.grown.sequences ≠ [] ∧
    ∃ st, tokenizeFileSync Example.grown [[97, 98, 97], [98]] none = .ok st := by
  have hu := Tokens.Family.usable (.inl grown_bits)
  have hs : ∃ f, savedFile Example.grown = .ok f := by
    unfold savedFile; rw [toJson_eq _ hu.inRange]; exact ⟨_, rfl⟩
  obtain ⟨f, hf⟩ := hs
  obtain ⟨_, hw⟩ := written_saved hu.inRange hf
  exact ⟨_, Example.grown_regular, family_lossless (.inl grown_bits), hw.whole, by decide,
    sync_exists hu.accepted hu.inRange _ _⟩

/-- The text that can be had back: all of it without processing; with Unix line ends and a final newline
otherwise. -/
def textBack (p : Processing) (text : List Char) : List Char :=
  match p with
  | .raw => text
  | .capsWords => finalNewline (dropCR text)

/-- **C133**.  The whole way: a text is processed as the set requires, cut into samples and tokenized on any
number of threads.  One decoder, which is given the bytes of the set's file and the tokens that were
counted, and nothing else, makes the text (for caps-words with Unix line ends and a final newline). -/
theorem C133_text_from_file (m : Main.Machine) (K : Char → Prop) (up : Char → Char)
    (hK : Restores m.db K up) (hnl : m.db.isAlphabetic '\n' = false) (hKn : K '\n') :
    ∃ decode : Bytes → List Nat → Option (List Char), ∀ (ts : TokenSet) (b : Bytes), Regular ts →
      Lossless ts → FileOf ts b → ∀ text : List Char, (ts.processing = .capsWords → ∀ c ∈ text, K c) →
      ∃ bytes, Main.maybeProcessFile m (utf8Encode text) none ts.processing = .ok bytes ∧
      ∀ (size : Nat) (short : Nat → Nat) (sampler : SamplerData) (n : Option Nat) (nthreads : Nat)
        (st : TokenStats), 0 < size → 0 < nthreads →
        fileSampler bytes size short = .ok sampler → TokenizeFile ts sampler n nthreads st →
        ∃ tokens : List Nat, (∀ i, st.tokenCounts.getD i 0 = tokens.count i) ∧
          st.totalTokens = tokens.length ∧ decode b tokens = some (textBack ts.processing text) := by
  refine ⟨fun b l => match readTokenSet b with
    | .ok ts => match ts.processing with
      | .raw => utf8Decode (fileDecode b l)
      | .capsWords => (utf8Decode (fileDecode b l)).map (readmeDecode m.db up .asIs)
    | .error _ => none, ?_⟩
  intro ts b hr hl hb text htext
  have key : ∀ bytes, ∀ (size : Nat) (short : Nat → Nat) (sampler : SamplerData) (n : Option Nat)
      (nthreads : Nat) (st : TokenStats), 0 < size → 0 < nthreads →
      fileSampler bytes size short = .ok sampler → TokenizeFile ts sampler n nthreads st →
      ∃ tokens : List Nat, (∀ i, st.tokenCounts.getD i 0 = tokens.count i) ∧
        st.totalTokens = tokens.length ∧ fileDecode b tokens = bytes := by
    intro bytes size short sampler n nthreads st hs hN hrun hst
    obtain ⟨_, g2, _⟩ := C46_file_scanned ts hr.inRange bytes size hs short sampler hrun n nthreads hN
    obtain ⟨tokens, t1, t2, t3⟩ :=
      fileDecode_counts hr hl hb (C07_tokenize_file ts hr.inRange sampler n nthreads hN st hst)
    exact ⟨tokens, t1, t2, t3.trans g2⟩
  simp only [fileOf_read hr hb]
  cases hp : ts.processing with
  | raw =>
    refine ⟨utf8Encode text, rfl, ?_⟩
    intro size short sampler n nthreads st hs hN hrun hst
    obtain ⟨tokens, t1, t2, t3⟩ := key _ size short sampler n nthreads st hs hN hrun hst
    refine ⟨tokens, t1, t2, ?_⟩
    simp only [hp, t3, utf8Decode_encode, textBack]
  | capsWords =>
    obtain ⟨z, h1, h2⟩ := C62_readme_decoder_file m.db K up hK hnl hKn text (htext hp)
    refine ⟨utf8Encode z, ?_, ?_⟩
    · unfold Main.maybeProcessFile
      simp only [processBytes_text m.db text z h1, R.ok_bind, if_true]
    · intro size short sampler n nthreads st hs hN hrun hst
      obtain ⟨tokens, t1, t2, t3⟩ := key _ size short sampler n nthreads st hs hN hrun hst
      refine ⟨tokens, t1, t2, ?_⟩
      simp only [hp, t3, utf8Decode_encode, Option.map_some, h2, textBack]

/-- **C133** (what the program writes).  A successful optimize command leaves a file whose bytes have, for a
valid set of the requested type, processing and size, all that the decoders above are given. -/
theorem C133_optimize_file (m : Main.Machine) (hm : MachineOk m) (hr : RatioText m.ratio) (d : Files)
    (data : Text) (processed : Option Text) (dir : Text) (p : Processing) (ty : TokenType) (ntokens : Nat)
    (inputTokens : Option Text) (minSize : Option Nat) (hg : StartsGood d p ty ntokens inputTokens)
    (hsmall : SmallEnough m d (.optimize data processed dir p ty ntokens inputTokens minSize))
    (ws : List (Text × Bytes))
    (h : Exec m d (.optimize data processed dir p ty ntokens inputTokens minSize) (.ok (), ws)) :
    ∃ ts b, (writeAll d ws).read (fileIn dir (tokenFile ts.tokens.length p ty)) = some b ∧
      Regular ts ∧ Lossless ts ∧ FileOf ts b ∧ ts.tokenType = ty ∧ ts.processing = p ∧
      ts.tokens.length ≤ ntokens := by
  obtain ⟨ts, b, h1, h2, h3, _⟩ := C59_result_on_disk m hm hr d data processed dir p ty ntokens inputTokens
    minSize hg hsmall ws h
  exact ⟨ts, b, h2, h1.regular, h1.lossless, h3, h1.type, h1.processing, h1.budget⟩

-- the hypotheses are met: a machine, a data file and a run
example : ∃ ws, Exec aMachine someFiles (.optimize "data".toList none "dir".toList .raw .bytes 300 none none)
      (.ok (), ws) ∧
    StartsGood someFiles .raw .bytes 300 none ∧
    SmallEnough aMachine someFiles (.optimize "data".toList none "dir".toList .raw .bytes 300 none none) := by
  have hg := someFiles_start .raw .bytes 300 (by show 256 ≤ 300; decide)
  obtain ⟨⟨o, ho⟩, hall⟩ := C59_optimize_succeeds aMachine aMachine_ok someFiles "data".toList none
    "dir".toList .raw .bytes 300 none hg [97, 98, 10] [97, 98, 10] (.raw rfl) (fun _ h => by cases h)
    (by decide) (fun _ _ => rfl)
  have h := hall o ho
  obtain ⟨r, ws⟩ := o
  have h' : r = .ok () := h
  subst h'
  exact ⟨ws, ho, hg, someFiles_small _ _ _ (by decide) _⟩

end Tokens.Props
