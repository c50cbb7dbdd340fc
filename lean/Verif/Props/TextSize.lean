import Verif.Proofs.TextSize
import Verif.Props.Processing

/-!
# Property C109: how large a processed text is

Read together with `Verif/Spec/TextSize.lean`.
-/

namespace Tokens.Props
open Tokens Spec Processing

set_option linter.unusedVariables false

/-- **C109** (at most).  If small letters take at most `num / den ≥ 1` times the bytes of the capitals, then
a processed text takes at most `num / den` times the bytes of the text, and one byte for each character,
and one more. -/
theorem C109_at_most (db : CharTables) (K : Char → Prop) (num den : Nat) (hd : den ≤ num)
    (h : GrowsAtMost db K num den) (text : List Char) (hK : ∀ c ∈ text, K c) :
    ∃ z, process db text = .ok z ∧
      den * byteLen z ≤ num * byteLen text + den * (text.length + 1) :=
  process_most hd h text hK

/-- **C109** (at least).  Where small letters take as many bytes as capitals, processing does not make a
text shorter: what is saved by leaving out single spaces is used for the end markers of the words.  And
it does not make it longer than twice its length and one byte. -/
theorem C109_doubles_at_most (db : CharTables) (K : Char → Prop) (h : KeepsLength db K) (text : List Char)
    (hK : ∀ c ∈ text, K c) :
    ∃ z, process db text = .ok z ∧ byteLen text ≤ byteLen z ∧ byteLen z ≤ 2 * byteLen text + 1 := by
  obtain ⟨z, h1, h2⟩ := process_least h text hK
  obtain ⟨z', h3, h4⟩ := process_most (Nat.le_refl 1) (keeps_grows h) text hK
  cases h1.symm.trans h3
  have := length_le_byteLen text
  exact ⟨z, h1, h2, by omega⟩

/-- **C109** for ASCII texts. -/
theorem C109_ascii (db : CharTables) (hdb : AsciiTables db) (text : List Char)
    (ht : ∀ c ∈ text, c.toNat < 128) :
    ∃ z, process db text = .ok z ∧ text.length ≤ byteLen z ∧ byteLen z ≤ 2 * text.length + 1 := by
  obtain ⟨z, h1, h2, h3⟩ := C109_doubles_at_most db Ascii (ascii_keeps hdb) text ht
  rw [byteLen_ascii ht] at h2 h3
  exact ⟨z, h1, h2, h3⟩

/-- **C109** (the bound is reached).  For every odd length there is an ASCII text that is processed to twice
its length and one byte; so the capacity of twice the length that `process` reserves can be too small, by
one byte. -/
theorem C109_reached (db : CharTables) (hdb : AsciiTables db) (n : Nat) :
    ∃ text z, text.length = 2 * n + 1 ∧ (∀ c ∈ text, c.toNat < 128) ∧ process db text = .ok z ∧
      byteLen z = 2 * text.length + 1 := by
  have key : ∀ n, ∃ l : List Item, Maximal db l ∧ (textOf l).length = 2 * n + 1 ∧
      (∀ c ∈ textOf l, c.toNat < 128) ∧ byteLen (rewritten db l) = 4 * n + 3 ∧ ∃ l', l = .word ['A'] :: l' := by
    intro n
    have hA : db.isAlphabetic 'A' = true := by rw [hdb.alphabetic 'A' (by unfold Ascii; decide)]; decide
    have hU : db.isUppercase 'A' = true := by rw [hdb.upper 'A' (by unfold Ascii; decide)]; decide
    have hL : db.lowerFirst 'A' = 'a' := by rw [hdb.lowerFirst 'A' (by unfold Ascii; decide)]; decide
    have hdot : db.isAlphabetic '.' = false := by rw [hdb.alphabetic '.' (by unfold Ascii; decide)]; decide
    have hc : caseMarked db ['A'] = [Char.ofNat 0x14, 'a'] := by simp [caseMarked, hU, hL]
    have e3 : byteLen (caseMarked db ['A'] ++ [Char.ofNat 0x16]) = 3 := by
      rw [hc]; exact byteLen_ascii (by simp)
    induction n with
    | zero =>
      refine ⟨[.word ['A']], ?_, rfl, by simp [textOf], ?_, [], rfl⟩
      · exact ⟨by simp, by simp [hA], by simp, trivial⟩
      · rw [rewritten_word_not_space ['A'] (by simp), byteLen_append, e3]; rfl
    | succ n ih =>
      obtain ⟨l, h1, h2, h3, h4, l', rfl⟩ := ih
      refine ⟨.word ['A'] :: .other '.' :: .word ['A'] :: l', ?_, ?_, ?_, ?_, _, rfl⟩
      · exact ⟨by simp, by simp [hA], by simp, hdot, h1⟩
      · simp [textOf] at h2 ⊢; omega
      · intro c hc
        simp only [textOf, List.mem_append, List.mem_cons, List.not_mem_nil, or_false] at hc
        rcases hc with rfl | rfl | hc
        · decide
        · decide
        · exact h3 c (by simpa [textOf] using hc)
      · rw [rewritten_word_not_space ['A'] (by simp), byteLen_append, e3]
        rw [show rewritten db (.other '.' :: .word ['A'] :: l') = '.' :: rewritten db (.word ['A'] :: l') from rfl]
        rw [byteLen_cons, h4, byteLen_ascii (t := ['.']) (by simp)]
        simp only [List.length_cons, List.length_nil]
        omega
  obtain ⟨l, h1, h2, h3, h4, _⟩ := key n
  exact ⟨textOf l, _, h2, h3, process_items h1, by omega⟩

/-- **C109** (files, at most).  The file that `process_file` writes takes at most `num / den` times the
bytes of the input and a newline, and one byte for each of their characters. -/
theorem C109_file_at_most (db : CharTables) (K : Char → Prop) (hnl : db.isAlphabetic '\n' = false) (hKn : K '\n')
    (num den : Nat) (hd : den ≤ num) (h : GrowsAtMost db K num den) (text : List Char)
    (hK : ∀ c ∈ text, K c) :
    ∃ z, processFile db text = .ok z ∧
      den * byteLen z ≤ num * (byteLen text + 1) + den * (text.length + 1) := by
  obtain ⟨z, h1, h2⟩ := C21_file_any db hnl text
  obtain ⟨a1, a2, a3⟩ := dropCR_byteLen text
  obtain ⟨_, b1, b2, b3, b4⟩ := finalNewline_facts (dropCR text)
  obtain ⟨z', h3, h4⟩ := process_most_line hd h hnl (finalNewline (dropCR text)) (fun c hc => by
    rcases b3 c hc with hc | rfl
    · exact hK c (a3 c hc)
    · exact hKn) b4
  cases h2.symm.trans h3
  refine ⟨z, h1, Nat.le_trans h4 (Nat.add_le_add (Nat.mul_le_mul_left _ ?_) (Nat.mul_le_mul_left _ ?_))⟩ <;> omega

/-- **C109** (files).  Where small letters take as many bytes as capitals, the file that `process_file`
writes is at least as large as the input without the `\r` of Windows line ends, and at most twice as large
as the input and two bytes. -/
theorem C109_file (db : CharTables) (K : Char → Prop) (hnl : db.isAlphabetic '\n' = false) (hKn : K '\n')
    (h : KeepsLength db K) (text : List Char) (hK : ∀ c ∈ text, K c) :
    ∃ z, processFile db text = .ok z ∧ byteLen (dropCR text) ≤ byteLen z ∧
      byteLen z ≤ 2 * byteLen text + 2 := by
  obtain ⟨z, h1, h2⟩ := C21_file_any db hnl text
  obtain ⟨_, _, a3⟩ := dropCR_byteLen text
  obtain ⟨b0, b1, b2, b3, b4⟩ := finalNewline_facts (dropCR text)
  obtain ⟨z', h3, h4⟩ := process_least h (finalNewline (dropCR text)) (fun c hc => by
    rcases b3 c hc with hc | rfl
    · exact hK c (a3 c hc)
    · exact hKn)
  cases h2.symm.trans h3
  obtain ⟨z', h5, h6⟩ := C109_file_at_most db K hnl hKn 1 1 (Nat.le_refl 1) (keeps_grows h) text hK
  cases h1.symm.trans h5
  have := length_le_byteLen text
  exact ⟨z, h1, by omega, by omega⟩

-- the hypotheses are met by the tables for ASCII
example : KeepsLength asciiOnly Ascii ∧ GrowsAtMost asciiOnly Ascii 3 2 ∧ asciiOnly.isAlphabetic '\n' = false := by
  exact ⟨ascii_keeps asciiOnly_tables, keeps_grows_more (by decide) (ascii_keeps asciiOnly_tables), by decide⟩

end Tokens.Props
