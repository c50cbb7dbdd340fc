import Verif.Proofs.Cuts
import Verif.Props.Family
import Verif.Props.Readme
import Verif.Props.Sampler

/-!
# Property C74: from the text to the counts and back

The stages of the README one after the other: `process` writes the processed text to a file, a sampler
cuts the file, the tokenizer counts tokens.  `Spec.readmeDecode` is the README's decoder of the
processed text (`Verif/Spec/Readme.lean`), `utf8Decode` decodes UTF-8.
-/

namespace Tokens.Props
open Tokens Spec TokenSet Batch Processing Input

set_option linter.unusedVariables false

/-- **C74**.  The counts that a tokenization reports are those of a list of tokens, made of the shortest
tokenizations of the samples, from which the data can be recovered; the decoder depends on the set
only. -/
theorem C74_counts_of_recoverable_tokens (ts : TokenSet) (hf : Family ts) :
    ∃ decode : List Nat → Bytes, ∀ (samples : List Bytes) (n : Option Nat) (st : TokenStats),
      tokenizeFileSync ts samples n = .ok st →
      ∃ tokens : Bytes → List Nat,
        (∀ x ∈ samples, ∃ ps, Optimal ts x ps ∧ tokens x = output ts ps) ∧
        (∀ i, st.tokenCounts.getD i 0 = (samples.flatMap tokens).count i) ∧
        st.totalTokens = (samples.flatMap tokens).length ∧
        decode (samples.flatMap tokens) = samples.flatten := by
  obtain ⟨dec, hdec⟩ := family_lossless hf
  refine ⟨fun l => dec (l.map (ts.tokens[·]?)), ?_⟩
  intro samples n st hrun
  have hseq := (Tokens.Family.usable hf).inRange
  cases hnew : FragmentTokenizer.new ts with
  | error e => unfold tokenizeFileSync at hrun; rw [hnew] at hrun; simp [bind, Except.bind] at hrun
  | ok tk =>
  obtain ⟨d, hw⟩ := exists_work hnew hseq
  obtain ⟨st', h1, h2, _, h3⟩ := sync_ok hnew hw samples n
  rw [hrun] at h1
  have h1 := Except.ok.inj h1
  subst h1
  obtain ⟨seg, hseg⟩ : ∃ seg : Bytes → List Piece,
      ∀ x, LongestLast ts (seg x) x ∧ d x = segCount ts (seg x) x.length :=
    ⟨fun x => Classical.choose (hw.seg x), fun x => Classical.choose_spec (hw.seg x)⟩
  have hopt : ∀ x, Optimal ts x (seg x) := fun x => (hseg x).1.optimal
  have hjoin := join_spells seg samples (fun x _ => hopt x)
  have hout : samples.flatMap (fun x => output ts (seg x)) = output ts (samples.flatMap seg) := by
    unfold output; rw [List.flatMap_assoc]
  refine ⟨fun x => output ts (seg x), fun x _ => ⟨seg x, hopt x, rfl⟩, ?_, ?_, ?_⟩
  · intro i
    have := h3 (.tok i)
    simp only [cnt] at this
    rw [this]
    clear this h3 hrun hjoin hout
    induction samples with
    | nil => simp
    | cons x xs ih =>
      rw [workSum_cons, List.flatMap_cons, List.count_append, ih, (hseg x).2]
      congr 1
      simp only [segCount]
      split
      · rfl
      · rename_i hi
        symm
        rw [List.count_eq_zero]
        intro hm
        exact hi (spells_output_lt hseq (hopt x).1 i hm)
  · have := h3 .total
    simp only [cnt] at this
    rw [this, hout, hjoin.2]
    unfold workSum
    congr 1
    apply List.map_congr_left
    intro x _
    rw [(hseg x).2]; rfl
  · show dec _ = _
    rw [hout]
    exact hdec _ _ hjoin.1

/-- **C74**.  All stages together: process a text, write it to a file, cut the file in any way the file
sampler may, tokenize it on any number of threads with any set that the program can make.  The tokens
counted can be turned back into the text (with Unix line ends and a final newline) by two decoders in a
row, one for the token set and the README's. -/
theorem C74_pipeline_lossless (db : CharTables) (K : Char → Prop) (up : Char → Char)
    (hK : Restores db K up) (hnl : db.isAlphabetic '\n' = false) (hKn : K '\n') (ts : TokenSet)
    (hf : Family ts) :
    ∃ decode : List Nat → Bytes, ∀ (text : List Char), (∀ c ∈ text, K c) →
      ∃ z, processFile db text = .ok z ∧
      ∀ (size : Nat) (short : Nat → Nat) (sampler : SamplerData) (n : Option Nat) (nthreads : Nat)
        (st : TokenStats), 0 < size → 0 < nthreads →
        fileSampler (utf8Encode z) size short = .ok sampler → TokenizeFile ts sampler n nthreads st →
        ∃ tokens : List Nat, (∀ i, st.tokenCounts.getD i 0 = tokens.count i) ∧
          st.totalTokens = tokens.length ∧
          (utf8Decode (decode tokens)).map (readmeDecode db up .asIs) = some (finalNewline (dropCR text)) := by
  obtain ⟨dec, hdec⟩ := C74_counts_of_recoverable_tokens ts hf
  refine ⟨dec, ?_⟩
  intro text htext
  obtain ⟨z, h1, h2⟩ := C62_readme_decoder_file db K up hK hnl hKn text htext
  refine ⟨z, h1, ?_⟩
  intro size short sampler n nthreads st hs hN hrun hst
  have hseq := (Tokens.Family.usable hf).inRange
  obtain ⟨_, g2, _⟩ := C46_file_scanned ts hseq _ size hs short sampler hrun n nthreads hN
  obtain ⟨tokens, _, t2, t3, t4⟩ := hdec _ n st (C07_tokenize_file ts hseq sampler n nthreads hN st hst)
  refine ⟨_, t2, t3, ?_⟩
  rw [t4, g2, utf8Decode_encode, Option.map_some, h2]

/-- **C74** for data in memory, when no character is cut. -/
theorem C74_pipeline_lossless_memory (db : CharTables) (K : Char → Prop) (up : Char → Char)
    (hK : Restores db K up) (hnl : db.isAlphabetic '\n' = false) (hKn : K '\n') (ts : TokenSet)
    (hf : Family ts) :
    ∃ decode : List Nat → Bytes, ∀ (text : List Char), (∀ c ∈ text, K c) →
      ∃ z, processFile db text = .ok z ∧
      ∀ (size : Nat) (slices : List Bytes) (n : Option Nat) (nthreads : Nat), 0 < size → 0 < nthreads →
        memSlices ⟨utf8Encode z, size⟩ ((utf8Encode z).length + 1) 0 = .ok slices →
        (∀ x ∈ slices, validUtf8 x = true) →
        ∃ sampler, memorySampler ⟨utf8Encode z, size⟩ = .ok sampler ∧
        ∀ st, TokenizeFile ts sampler n nthreads st →
        ∃ tokens : List Nat, (∀ i, st.tokenCounts.getD i 0 = tokens.count i) ∧
          st.totalTokens = tokens.length ∧
          (utf8Decode (decode tokens)).map (readmeDecode db up .asIs) = some (finalNewline (dropCR text)) := by
  obtain ⟨dec, hdec⟩ := C74_counts_of_recoverable_tokens ts hf
  refine ⟨dec, ?_⟩
  intro text htext
  obtain ⟨z, h1, h2⟩ := C62_readme_decoder_file db K up hK hnl hKn text htext
  refine ⟨z, h1, ?_⟩
  intro size slices n nthreads hs hN hsl hv
  have hseq := (Tokens.Family.usable hf).inRange
  obtain ⟨sampler, g1, g2, _⟩ := C46_memory_scanned ts hseq ⟨utf8Encode z, size⟩ hs slices hsl hv n nthreads hN
  refine ⟨sampler, g1, ?_⟩
  intro st hst
  obtain ⟨tokens, _, t2, t3, t4⟩ := hdec _ n st (C07_tokenize_file ts hseq sampler n nthreads hN st hst)
  refine ⟨_, t2, t3, ?_⟩
  rw [t4, g2]
  show (utf8Decode (utf8Encode z)).map _ = _
  rw [utf8Decode_encode, Option.map_some, h2]

theorem ascii_toLower {c : Char} (h : Ascii c) : Ascii c.toLower := by
  unfold Ascii at *
  have key : ∀ n < 128, ((Char.ofNat n).toLower).toNat < 128 := by decide +kernel
  have := key c.toNat h
  rwa [Char.ofNat_toNat] at this

theorem ascii_caseMarked {db : CharTables} (hdb : AsciiTables db) {w : List Char} (hw : ∀ c ∈ w, Ascii c) :
    ∀ c ∈ caseMarked db w, Ascii c := by
  cases w with
  | nil => intro c hc; simp [caseMarked] at hc
  | cons a r =>
    intro c hc
    rw [caseMarked] at hc
    split at hc
    · simp only [List.mem_cons] at hc
      rcases hc with rfl | rfl | hc
      · unfold Ascii; decide
      · rw [hdb.lowerFirst a (hw a (by simp))]; exact ascii_toLower (hw a (by simp))
      · exact hw c (List.mem_cons_of_mem _ hc)
    · split at hc
      · rw [hdb.lowerStr _ hw] at hc
        rcases List.mem_cons.1 hc with rfl | hc
        · unfold Ascii; decide
        · obtain ⟨x, hx, rfl⟩ := List.mem_map.1 hc
          exact ascii_toLower (hw x hx)
      · exact hw c hc

theorem ascii_rewritten {db : CharTables} (hdb : AsciiTables db) (l : List Item)
    (h : ∀ c ∈ textOf l, Ascii c) : ∀ c ∈ rewritten db l, Ascii c := by
  have h16 : Ascii (Char.ofNat 0x16) := by unfold Ascii; decide
  induction l using rewritten.induct with
  | case1 => intro c hc; simp [rewritten] at hc
  | case2 w v l ih =>
    intro c hc
    rw [rewritten] at hc
    simp only [List.mem_append, List.mem_singleton] at hc
    rcases hc with (hc | rfl) | hc
    · exact ascii_caseMarked hdb (fun c hc => h c (by simp [textOf, hc])) c hc
    · exact h16
    · refine ih (fun c hc => h c ?_) c hc
      simp only [textOf, List.mem_append, List.mem_cons] at hc ⊢
      exact .inr (.inr hc)
  | case3 w l hn ih =>
    intro c hc
    rw [rewritten] at hc
    · simp only [List.mem_append, List.mem_singleton] at hc
      rcases hc with (hc | rfl) | hc
      · exact ascii_caseMarked hdb (fun c hc => h c (by simp [textOf, hc])) c hc
      · exact h16
      · exact ih (fun c hc => h c (by simp [textOf, hc])) c hc
    · exact hn
  | case4 d l ih =>
    intro c hc
    rw [rewritten] at hc
    rcases List.mem_cons.1 hc with rfl | hc
    · exact h c (by simp [textOf])
    · exact ih (fun c hc => h c (by simp [textOf, hc])) c hc

theorem ascii_processFile {db : CharTables} (hdb : AsciiTables db) {text z : List Char}
    (h : ∀ c ∈ text, Ascii c) (hz : processFile db text = .ok z) : ∀ b ∈ utf8Encode z, b < 128 := by
  have hnl : db.isAlphabetic '\n' = false := by rw [hdb.alphabetic _ (by unfold Ascii; decide)]; rfl
  obtain ⟨z', h1, h2⟩ := processFile_eq hnl text
  rw [hz] at h1
  have := Except.ok.inj h1
  subst this
  obtain ⟨l, m1, m2⟩ := exists_items db (finalNewline (dropCR text))
  have h3 := process_items m1
  rw [m2, h2] at h3
  have := Except.ok.inj h3
  subst this
  have hz : ∀ c ∈ rewritten db l, Ascii c := by
    refine ascii_rewritten hdb l ?_
    rw [m2]
    intro c hc
    have hd : ∀ c ∈ dropCR text, Ascii c := fun c hc => h c (mem_dropCR text c hc)
    unfold finalNewline at hc
    split at hc
    · exact hd c hc
    · rcases List.mem_append.1 hc with hc | hc
      · exact hd c hc
      · rw [List.mem_singleton.1 hc]; unfold Ascii; decide
  intro b hb
  unfold utf8Encode at hb
  obtain ⟨c, hc, hb⟩ := List.mem_flatMap.1 hb
  have hac := hz c hc
  have key : ∀ n < 128, ∀ b ∈ String.utf8EncodeChar (Char.ofNat n), b < 128 := by decide +kernel
  have := key c.toNat hac b
  rw [Char.ofNat_toNat] at this
  exact this hb

/-- **C74** for ASCII text without the three markers: here no stage can fail, whatever the sizes and
however short the reads, and the text comes back. -/
theorem C74_pipeline_ascii (db : CharTables) (hdb : AsciiTables db) (ts : TokenSet) (hf : Family ts) :
    ∃ decode : List Nat → Bytes, ∀ (text : List Char),
      (∀ c ∈ text, c.toNat < 128 ∧ c.toNat ≠ 0x14 ∧ c.toNat ≠ 0x15 ∧ c.toNat ≠ 0x16) →
      ∃ z, processFile db text = .ok z ∧ ∀ (size : Nat) (short : Nat → Nat) (n : Option Nat), 0 < size →
        ∃ sampler st, fileSampler (utf8Encode z) size short = .ok sampler ∧
          tokenizeFileSync ts sampler.samples n = .ok st ∧
          ∃ tokens : List Nat, (∀ i, st.tokenCounts.getD i 0 = tokens.count i) ∧
            st.totalTokens = tokens.length ∧
            (utf8Decode (decode tokens)).map (readmeDecode db Char.toUpper .asIs) =
              some (finalNewline (dropCR text)) := by
  obtain ⟨dec, hdec⟩ := C74_counts_of_recoverable_tokens ts hf
  refine ⟨dec, ?_⟩
  intro text htext
  have hnl : db.isAlphabetic '\n' = false := by rw [hdb.alphabetic _ (by unfold Ascii; decide)]; rfl
  obtain ⟨z, h1, h2⟩ := C62_readme_decoder_file db PlainAscii Char.toUpper (ascii_restores hdb) hnl
    (by unfold PlainAscii Ascii; decide) text htext
  refine ⟨z, h1, ?_⟩
  intro size short n hs
  obtain ⟨_, samples, g1, g2⟩ := C25_ascii_exact_partial (utf8Encode z)
    (ascii_processFile hdb (fun c hc => (htext c hc).1) h1) size hs short
  have hu := Tokens.Family.usable hf
  obtain ⟨st, h3⟩ := sync_exists hu.accepted hu.inRange samples n
  obtain ⟨tokens, _, t2, t3, t4⟩ := hdec samples n st h3
  refine ⟨_, st, g1, h3, _, t2, t3, ?_⟩
  rw [t4, g2, utf8Decode_encode, Option.map_some, h2]

-- the hypotheses are met: the tables, a set with codes, sampled in pieces of three bytes
example : AsciiTables asciiOnly ∧ Family Example.grown ∧
    processFile asciiOnly "Hello World\r\nx".toList = .ok "\x14hello\x16\x14world\x16\nx\x16\n".toList ∧
    finalNewline (dropCR "Hello World\r\nx".toList) = "Hello World\nx\n".toList :=
  ⟨⟨fun _ _ => rfl, fun _ _ => rfl, fun _ _ => rfl, fun _ _ => rfl, fun _ _ => rfl⟩,
    .inl grown_bits, rfl, rfl⟩

example : Restores asciiOnly PlainAscii Char.toUpper ∧ asciiOnly.isAlphabetic '\n' = false ∧
    PlainAscii '\n' :=
  ⟨ascii_restores ⟨fun _ _ => rfl, fun _ _ => rfl, fun _ _ => rfl, fun _ _ => rfl, fun _ _ => rfl⟩,
    rfl, by unfold PlainAscii Ascii; decide⟩

end Tokens.Props
