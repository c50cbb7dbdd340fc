import Verif.Proofs.Processing

/-!
# Properties C20 - C22: word processing

Read together with `Verif/Spec/Words.lean`.
-/

namespace Tokens.Props
open Tokens Spec Processing

/-- **C22**.  Every text has exactly one division into maximal words and other characters, and
`process` never panics and returns the documented rewriting of it, whatever the Unicode tables. -/
theorem C22_process_is_documented (db : CharTables) (text : List Char) :
    ∃ items, Maximal db items ∧ textOf items = text ∧
      process db text = .ok (rewritten db items) ∧
      ∀ items', Maximal db items' → textOf items' = text → items' = items := by
  obtain ⟨l, h1, h2⟩ := exists_items db text
  subst h2
  exact ⟨l, h1, rfl, process_items h1, fun l' h3 h4 => items_unique h3 h1 h4⟩

example : process asciiOnly "Hello, BIG  world McX b!".toList =
    .ok "\x14hello\x16, \x15big\x16  world\x16McX\x16b\x16!".toList := by rfl

example : Maximal asciiOnly [.word ['H', 'i'], .other ' ', .word ['y', 'o'], .other '!'] := by
  simp [Maximal, asciiOnly]

/-- **C20** (the part that holds).  On any class of characters without the markers on which the case
tables are one-to-one, different texts are processed differently.  Missing: all other texts, for
which it fails (`C20_fails_marker`, `C20_fails_dotted_i`). -/
theorem C20_reversible_partial (db : CharTables) (K : Char → Prop) (hK : OneToOne db K)
    (s t : List Char) (hs : ∀ c ∈ s, K c) (ht : ∀ c ∈ t, K c)
    (h : process db s = process db t) : s = t := process_inj hK hs ht h

/-- **C20** for ASCII.  For tables that are right on ASCII, texts of ASCII characters other than
`0x14`, `0x15`, `0x16` can be recovered. -/
theorem C20_reversible_ascii (db : CharTables) (hdb : AsciiTables db) (s t : List Char)
    (hs : ∀ c ∈ s, c.toNat < 128 ∧ c.toNat ≠ 0x14 ∧ c.toNat ≠ 0x15 ∧ c.toNat ≠ 0x16)
    (ht : ∀ c ∈ t, c.toNat < 128 ∧ c.toNat ≠ 0x14 ∧ c.toNat ≠ 0x15 ∧ c.toNat ≠ 0x16)
    (h : process db s = process db t) : s = t := process_inj (ascii_oneToOne hdb) hs ht h

theorem asciiOnly_tables : AsciiTables asciiOnly :=
  ⟨fun _ _ => rfl, fun _ _ => rfl, fun _ _ => rfl, fun _ _ => rfl, fun _ _ => rfl⟩

-- there are such tables
example : AsciiTables asciiOnly ∧ OneToOne asciiOnly PlainAscii :=
  ⟨asciiOnly_tables, ascii_oneToOne asciiOnly_tables⟩

/-- **C20** is violated by text that contains the marker characters. -/
theorem C20_fails_marker (db : CharTables) (hdb : AsciiTables db) :
    ∃ s t z : List Char, s ≠ t ∧ process db s = .ok z ∧ process db t = .ok z := by
  have a : ∀ n < 128, db.isAlphabetic (Char.ofNat n) = (Char.ofNat n).isAlpha := by
    intro n hn
    exact hdb.alphabetic _ (by
      unfold Ascii
      have : ∀ n < 128, (Char.ofNat n).toNat < 128 := by decide
      exact this n hn)
  refine ⟨['H', 'i', Char.ofNat 0x16], [Char.ofNat 0x14, 'h', 'i', Char.ofNat 0x16],
    [Char.ofNat 0x14, 'h', 'i', Char.ofNat 0x16, Char.ofNat 0x16], by decide, ?_, ?_⟩
  · have hm : Maximal db [.word ['H', 'i'], .other (Char.ofNat 0x16)] := by
      refine ⟨by simp, ?_, by simp, a 0x16 (by decide), trivial⟩
      intro c hc
      simp at hc
      rcases hc with rfl | rfl
      · exact a 72 (by decide)
      · exact a 105 (by decide)
    have := process_items hm
    rw [show textOf [.word ['H', 'i'], .other (Char.ofNat 0x16)] = ['H', 'i', Char.ofNat 0x16] from rfl]
      at this
    rw [this]
    have e : caseMarked db ['H', 'i'] = [Char.ofNat 0x14, 'h', 'i'] := by
      have h1 : db.isUppercase 'H' = true := by rw [hdb.upper 'H' (by decide : 'H'.toNat < 128)]; decide
      have h2 : db.isLowercase 'i' = true := by rw [hdb.lower 'i' (by decide : 'i'.toNat < 128)]; decide
      have h3 : db.lowerFirst 'H' = 'h' := by rw [hdb.lowerFirst 'H' (by decide : 'H'.toNat < 128)]; decide
      simp [caseMarked, h1, h2, h3]
    rw [rewritten_word_not_space _ (by simp), e]
    rfl
  · have hm : Maximal db [.other (Char.ofNat 0x14), .word ['h', 'i'], .other (Char.ofNat 0x16)] := by
      refine ⟨a 0x14 (by decide), by simp, ?_, by simp, a 0x16 (by decide), trivial⟩
      intro c hc
      simp at hc
      rcases hc with rfl | rfl
      · exact a 104 (by decide)
      · exact a 105 (by decide)
    have := process_items hm
    rw [show textOf [.other (Char.ofNat 0x14), .word ['h', 'i'], .other (Char.ofNat 0x16)] =
      [Char.ofNat 0x14, 'h', 'i', Char.ofNat 0x16] from rfl] at this
    rw [this]
    have e : caseMarked db ['h', 'i'] = ['h', 'i'] := by
      have h1 : db.isUppercase 'h' = false := by rw [hdb.upper 'h' (by decide : 'h'.toNat < 128)]; decide
      simp [caseMarked, h1]
    rw [rewritten, rewritten_word_not_space _ (by simp), e]
    rfl

/-- **C20** is violated also without markers: if the tables make of an uppercase letter `d` a
lowercase text that starts with `i` (as Unicode does for `İ`, U+0130), then `d` and `I` cannot be told
apart. -/
theorem C20_fails_dotted_i (db : CharTables) (hdb : AsciiTables db) (d : Char) (hd : d ≠ 'I')
    (ha : db.isAlphabetic d = true) (hu : db.isUppercase d = true) (hl : db.lowerFirst d = 'i') :
    [d] ≠ ['I'] ∧ ∃ z : List Char, process db [d] = .ok z ∧ process db ['I'] = .ok z := by
  have one : ∀ c, db.isAlphabetic c = true → db.isUppercase c = true → db.lowerFirst c = 'i' →
      process db [c] = .ok [Char.ofNat 0x14, 'i', Char.ofNat 0x16] := by
    intro c h1 h2 h3
    have hm : Maximal db [.word [c]] := ⟨by simp, by simpa using h1, by simp, trivial⟩
    have := process_items hm
    rw [show textOf [.word [c]] = [c] from rfl] at this
    rw [this]
    simp [rewritten, caseMarked, h2, h3]
  refine ⟨by simpa using hd, _, one d ha hu hl, one 'I' ?_ ?_ ?_⟩
  · rw [hdb.alphabetic 'I' (by decide : 'I'.toNat < 128)]; decide
  · rw [hdb.upper 'I' (by decide : 'I'.toNat < 128)]; decide
  · rw [hdb.lowerFirst 'I' (by decide : 'I'.toNat < 128)]; decide

-- such tables exist
example : ∃ db : CharTables, AsciiTables db ∧ db.isAlphabetic 'İ' = true ∧ db.isUppercase 'İ' = true ∧
    db.lowerFirst 'İ' = 'i' := by
  refine ⟨{ asciiOnly with
    isAlphabetic := fun c => c.isAlpha || c == 'İ'
    isUppercase := fun c => c.isUpper || c == 'İ'
    lowerFirst := fun c => if c = 'İ' then 'i' else c.toLower }, ⟨?_, ?_, ?_, ?_, ?_⟩, rfl, rfl, rfl⟩
  · intro c hc
    have : (c == 'İ') = false := by
      rw [beq_eq_false_iff_ne]; rintro rfl; exact absurd hc (by unfold Ascii; decide)
    simp [this]
  · intro c hc
    have : (c == 'İ') = false := by
      rw [beq_eq_false_iff_ne]; rintro rfl; exact absurd hc (by unfold Ascii; decide)
    simp [this]
  · intro c hc; rfl
  · intro c hc
    have : c ≠ 'İ' := by rintro rfl; exact absurd hc (by unfold Ascii; decide)
    simp [this]
  · intro w hw; rfl

/-- **C21**.  For text with Unix line ends (no `\r\n`) that is empty or ends in a newline,
`process_file` writes exactly what `process` makes of the whole text.  (A newline is not a letter.) -/
theorem C21_file_equals_text (db : CharTables) (hnl : db.isAlphabetic '\n' = false) (text : List Char)
    (hunix : ∀ a b, text ≠ a ++ '\r' :: '\n' :: b) (hend : text = [] ∨ text.getLast? = some '\n') :
    ∃ z, processFile db text = .ok z ∧ process db text = .ok z := by
  have := processFile_eq hnl text
  rwa [dropCR_of_unix hunix, finalNewline, if_pos hend] at this

/-- **C21** (any text).  In general `process_file` writes what `process` makes of the text with every
`\r\n` replaced by `\n` and with a final newline. -/
theorem C21_file_any (db : CharTables) (hnl : db.isAlphabetic '\n' = false) (text : List Char) :
    ∃ z, processFile db text = .ok z ∧ process db (finalNewline (dropCR text)) = .ok z :=
  processFile_eq hnl text

/-- **C21** (consequence).  So the line ends and a missing final newline cannot be recovered. -/
theorem C21_line_ends_lost (db : CharTables) (hnl : db.isAlphabetic '\n' = false) (t : List Char) :
    ∃ z, processFile db (t ++ ['.', '\r', '\n']) = .ok z ∧ processFile db (t ++ ['.', '\n']) = .ok z ∧
      processFile db (t ++ ['.']) = .ok z := by
  have d1 : ∀ x : List Char, dropCR (x ++ ['.', '\r', '\n']) = dropCR x ++ ['.', '\n'] := by
    intro x; rw [dropCR_append]; rfl
  have d2 : ∀ x : List Char, dropCR (x ++ ['.', '\n']) = dropCR x ++ ['.', '\n'] := by
    intro x; rw [dropCR_append]; rfl
  have d3 : ∀ x : List Char, dropCR (x ++ ['.']) = dropCR x ++ ['.'] := by
    intro x; rw [dropCR_append]; rfl
  obtain ⟨z1, h1, g1⟩ := processFile_eq hnl (t ++ ['.', '\r', '\n'])
  obtain ⟨z2, h2, g2⟩ := processFile_eq hnl (t ++ ['.', '\n'])
  obtain ⟨z3, h3, g3⟩ := processFile_eq hnl (t ++ ['.'])
  rw [d1] at g1
  rw [d2] at g2
  rw [d3] at g3
  have e : finalNewline (dropCR t ++ ['.']) = finalNewline (dropCR t ++ ['.', '\n']) := by
    simp [finalNewline]
  rw [e] at g3
  rw [g1] at g2 g3
  injection g2 with g2
  injection g3 with g3
  subst g2
  subst g3
  exact ⟨_, h1, h2, h3⟩

example : processFile asciiOnly "Ab c\nd\n".toList = process asciiOnly "Ab c\nd\n".toList ∧
    processFile asciiOnly "Ab \r\nd".toList = .ok "\x14ab\x16 \nd\x16\n".toList := ⟨rfl, rfl⟩

end Tokens.Props
