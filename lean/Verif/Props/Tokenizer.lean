import Verif.Proofs.Examples

/-!
# Properties C01 - C04: the tokenizer

Read together with `Verif/Spec/Segmentation.lean`.
-/

namespace Tokens.Props
open Tokens Spec FragmentTokenizer

/-- **C03** (construction).  `FragmentTokenizer::new` succeeds exactly on the usable token sets:
all strings of tokens and sequences are non-empty and distinct, and every byte is one of them. -/
theorem C03_new_succeeds_iff (ts : TokenSet) :
    (∃ tk, FragmentTokenizer.new ts = .ok tk) ↔
      (strTokens ts ++ ts.sequences.map (·.string)).Nodup ∧
      (∀ s ∈ strTokens ts ++ ts.sequences.map (·.string), s ≠ []) ∧
      ∀ b : UInt8, [b] ∈ strTokens ts ++ ts.sequences.map (·.string) := by
  constructor
  · rintro ⟨tk, h⟩
    obtain ⟨_, h1, h2, h3⟩ := ok_of_new h
    exact ⟨h1, h2, h3⟩
  · rintro ⟨h1, h2, h3⟩
    obtain ⟨tk, h, _⟩ := new_ok_of (ts := ts) ⟨h1, h2, h3⟩
    exact ⟨tk, h⟩

-- a set that is accepted, and one that is not (byte 255 is missing)
example : ∃ tk, FragmentTokenizer.new Example.grown = .ok tk :=
  (C03_new_succeeds_iff _).2
    ⟨Example.grown_ok.1.nodup, Example.grown_ok.1.nonempty, Example.grown_ok.1.bytes⟩
example : ¬ ∃ tk, FragmentTokenizer.new
    { nExt := 0, tokenType := .bytes, processing := .raw, splitParagraphs := true,
      tokens := [.str [97]], sequences := [] } = .ok tk := by
  rw [C03_new_succeeds_iff]
  rintro ⟨_, _, h⟩
  have := h 255
  simp [strTokens, tokenText] at this

/-- **C03** (no panic).  With an accepted token set whose sequences refer to existing tokens,
tokenizing never panics and never runs out of the loop bounds of the model. -/
theorem C03_processSlice_never_panics (ts : TokenSet) (tk : FragmentTokenizer)
    (hnew : FragmentTokenizer.new ts = .ok tk) (hseq : SeqsInRange ts) (text : Bytes)
    (st : TokenStats) (hst : Shaped ts st) : ∃ st', processSlice tk text st = .ok st' := by
  obtain ⟨st', _, h, _⟩ := processSlice_ok (ok_of_new hnew).1 hseq text st hst
  exact ⟨st', h⟩

/-- **C01**.  `total_tokens` grows by the least number of output tokens of any segmentation. -/
theorem C01_tokenization_is_optimal (ts : TokenSet) (tk : FragmentTokenizer)
    (hnew : FragmentTokenizer.new ts = .ok tk) (hseq : SeqsInRange ts) (text : Bytes)
    (st st' : TokenStats) (hst : Shaped ts st) (hrun : processSlice tk text st = .ok st') :
    (∃ ps, Spells ts ps text ∧ st'.totalTokens = st.totalTokens + (output ts ps).length) ∧
    ∀ qs, Spells ts qs text → st'.totalTokens ≤ st.totalTokens + (output ts qs).length := by
  obtain ⟨st'', ps, h, hLL, hc⟩ := processSlice_ok (ok_of_new hnew).1 hseq text st hst
  rw [hrun] at h
  simp at h
  subst h
  obtain ⟨h1, h2⟩ := hLL.optimal
  refine ⟨⟨ps, h1, hc.total⟩, ?_⟩
  intro qs hqs
  have := h2 qs hqs
  have := hc.total
  omega

/-- **C02**.  All counters describe one and the same optimal segmentation of the text. -/
theorem C02_statistics_of_one_segmentation (ts : TokenSet) (tk : FragmentTokenizer)
    (hnew : FragmentTokenizer.new ts = .ok tk) (hseq : SeqsInRange ts) (text : Bytes)
    (st st' : TokenStats) (hst : Shaped ts st) (hrun : processSlice tk text st = .ok st') :
    ∃ ps, Optimal ts text ps ∧ Counted ts ps text.length st st' := by
  obtain ⟨st'', ps, h, hLL, hc⟩ := processSlice_ok (ok_of_new hnew).1 hseq text st hst
  rw [hrun] at h
  simp at h
  subst h
  exact ⟨ps, hLL.optimal, hc⟩

/-- **C04**.  That segmentation is the one that cuts off the longest possible last piece,
again and again. -/
theorem C04_longest_last_piece (ts : TokenSet) (tk : FragmentTokenizer)
    (hnew : FragmentTokenizer.new ts = .ok tk) (hseq : SeqsInRange ts) (text : Bytes)
    (st st' : TokenStats) (hst : Shaped ts st) (hrun : processSlice tk text st = .ok st') :
    ∃ ps, LongestLast ts ps text ∧ Counted ts ps text.length st st' := by
  obtain ⟨st'', ps, h, hLL, hc⟩ := processSlice_ok (ok_of_new hnew).1 hseq text st hst
  rw [hrun] at h
  simp at h
  subst h
  exact ⟨ps, hLL, hc⟩

/-- **C04** (uniqueness).  There is only one segmentation of that kind, so C04 determines all
reported statistics. -/
theorem C04_longest_last_unique (ts : TokenSet) (hts : Tokenizable ts) (text : Bytes)
    (ps qs : List Piece) (hp : LongestLast ts ps text) (hq : LongestLast ts qs text) : ps = qs :=
  longestLast_unique hts hp hq

-- a text and a starting state that meet the hypotheses of C01 - C04
example : ∃ tk st', FragmentTokenizer.new Example.grown = .ok tk ∧
    processSlice tk [97, 98, 99, 100] (TokenStats.new Example.grown none) = .ok st' ∧
    Shaped Example.grown (TokenStats.new Example.grown none) := by
  obtain ⟨tk, h1, h2⟩ := new_ok_of Example.grown_ok.1
  obtain ⟨st', h3⟩ := C03_processSlice_never_panics _ tk h1 Example.grown_ok.2 [97, 98, 99, 100]
    _ (shaped_new _ none)
  exact ⟨tk, st', h1, h3, shaped_new _ none⟩

-- "abcd" has several segmentations in this set: a|bcd and ab|c|d among them
example : Spells Example.grown [.tok 16, .tok 19] [97, 98, 99, 100] :=
  .cons (s := [97]) (t := [98, 99, 100]) rfl (.cons (s := [98, 99, 100]) (t := []) rfl .nil)

end Tokens.Props
