import Verif.Proofs.Readme

/-!
# Properties C62 and C63: what the README promises of the processing stage

Read together with `Verif/Spec/Readme.lean`.
-/

namespace Tokens.Props
open Tokens Spec Processing

/-- **C62**.  The decoder described in the README gives back every text, whatever its words, spaces
and punctuation, over any class of characters whose capitals can be restored letter by letter. -/
theorem C62_readme_decoder (db : CharTables) (K : Char → Prop) (up : Char → Char)
    (hK : Restores db K up) (text : List Char) (h : ∀ c ∈ text, K c) :
    ∃ z, process db text = .ok z ∧ readmeDecode db up .asIs z = text :=
  decode_process hK text h

/-- **C62** for ASCII text without the markers. -/
theorem C62_readme_decoder_ascii (db : CharTables) (hdb : AsciiTables db) (text : List Char)
    (h : ∀ c ∈ text, c.toNat < 128 ∧ c.toNat ≠ 0x14 ∧ c.toNat ≠ 0x15 ∧ c.toNat ≠ 0x16) :
    ∃ z, process db text = .ok z ∧ readmeDecode db Char.toUpper .asIs z = text :=
  decode_process (ascii_restores hdb) text h

theorem mem_dropCR (t : List Char) : ∀ c ∈ dropCR t, c ∈ t := by
  intro c
  induction t using dropCR.induct with
  | case1 t ih =>
    intro hc
    rw [dropCR, List.mem_cons] at hc
    rcases hc with rfl | hc
    · simp
    · simp [ih hc]
  | case2 a t h ih =>
    intro hc
    rw [dropCR] at hc
    · rw [List.mem_cons] at hc
      rcases hc with rfl | hc
      · simp
      · simp [ih hc]
    · exact h
  | case3 => intro hc; simp [dropCR] at hc

/-- **C62** for files.  Decoding the file that `process_file` writes gives the text with Unix line ends
and a final newline; so a text that already has these is recovered exactly. -/
theorem C62_readme_decoder_file (db : CharTables) (K : Char → Prop) (up : Char → Char)
    (hK : Restores db K up) (hnl : db.isAlphabetic '\n' = false) (hKn : K '\n') (text : List Char)
    (h : ∀ c ∈ text, K c) :
    ∃ z, processFile db text = .ok z ∧
      readmeDecode db up .asIs z = finalNewline (dropCR text) := by
  obtain ⟨z, h1, h2⟩ := processFile_eq hnl text
  obtain ⟨z', h3, h4⟩ := decode_process hK (finalNewline (dropCR text)) (by
    intro c hc
    have hd : ∀ c ∈ dropCR text, K c := fun c hc => h c (mem_dropCR text c hc)
    unfold finalNewline at hc
    split at hc
    · exact hd c hc
    · rw [List.mem_append, List.mem_singleton] at hc
      rcases hc with hc | rfl
      · exact hd c hc
      · exact hKn)
  rw [h2] at h3
  injection h3 with h3
  subst h3
  exact ⟨z, h1, h4⟩

-- the hypotheses hold for ASCII, and the decoder does something
example : Restores asciiOnly PlainAscii Char.toUpper ∧ asciiOnly.isAlphabetic '\n' = false ∧
    PlainAscii '\n' :=
  ⟨ascii_restores ⟨fun _ _ => rfl, fun _ _ => rfl, fun _ _ => rfl, fun _ _ => rfl, fun _ _ => rfl⟩,
    rfl, by unfold PlainAscii Ascii; decide⟩

example : readmeDecode asciiOnly Char.toUpper .asIs
    "\x14hello\x16, \x15big\x16\x14world\x16  McX\x16b\x16!".toList =
    "Hello, BIG World  McX b!".toList := by rfl

/-- **C63** (README, point 3).  A word is written with the same characters wherever it stands: at the
start or the end of the text, after and before spaces, punctuation or anything else that is no
letter. -/
theorem C63_same_in_any_context (db : CharTables) (w before after : List Char) (hw : IsWord db w)
    (hb : ∀ c, before.getLast? = some c → db.isAlphabetic c = false)
    (ha : ∀ c, after.head? = some c → db.isAlphabetic c = false) :
    ∃ z p q, process db w = .ok z ∧ process db (before ++ w ++ after) = .ok (p ++ z ++ q) := by
  obtain ⟨p, q, h⟩ := process_around w before after hw hb ha
  exact ⟨_, p, q, process_word w hw, h⟩

/-- **C63** (README, point 2).  Words separated by single spaces are written one after the other, with
nothing in between: the result is the concatenation of what each word gives alone. -/
theorem C63_single_spaces_cost_nothing (db : CharTables) (hsp : db.isAlphabetic ' ' = false)
    (ws : List (List Char)) (h : ∀ w ∈ ws, IsWord db w) :
    ∃ f : List Char → List Char, (∀ w ∈ ws, process db w = .ok (f w)) ∧
      process db (spaced ws) = .ok (ws.map f).flatten :=
  ⟨fun w => caseMarked db w ++ [Char.ofNat 0x16], fun w hw => process_word w (h w hw), by
    rw [process_spaced hsp ws h, List.flatMap_def]⟩

/-- **C63** (README, point 1).  A capitalized word is written as the marker `0x14` and then exactly as
the word with a small first letter. -/
theorem C63_capitalized_shares_letters (db : CharTables) (a : Char) (r : List Char)
    (hw : IsWord db (a :: r)) (hl : IsWord db (db.lowerFirst a :: r)) (ha : db.isUppercase a = true)
    (hr : ∀ c ∈ r, db.isLowercase c = true) (hlow : db.isUppercase (db.lowerFirst a) = false) :
    ∃ z, process db (db.lowerFirst a :: r) = .ok z ∧
      process db (a :: r) = .ok (Char.ofNat 0x14 :: z) := by
  refine ⟨_, process_word _ hl, ?_⟩
  rw [process_word _ hw]
  have e : caseMarked db (a :: r) = Char.ofNat 0x14 :: db.lowerFirst a :: r := by
    rw [caseMarked, if_pos ⟨ha, hr⟩]
  rw [e]
  simp [caseMarked, hlow]

/-- **C63** (README, point 1).  A word of two or more capitals is written as the marker `0x15` and then
exactly as the same word in small letters. -/
theorem C63_all_caps_shares_letters (db : CharTables) (a b : Char) (r low : List Char) (c : Char)
    (hw : IsWord db (a :: b :: r)) (hlow : db.lowerStr (a :: b :: r) = c :: low)
    (hl : IsWord db (c :: low)) (hu : ∀ x ∈ a :: b :: r, db.isUppercase x = true)
    (hb : db.isLowercase b = false) (hc : db.isUppercase c = false) :
    ∃ z, process db (c :: low) = .ok z ∧
      process db (a :: b :: r) = .ok (Char.ofNat 0x15 :: z) := by
  refine ⟨_, process_word _ hl, ?_⟩
  rw [process_word _ hw]
  have h1 : ¬ (∀ x ∈ b :: r, db.isLowercase x = true) := by
    intro h
    have := h b (by simp)
    rw [hb] at this
    cases this
  have e : caseMarked db (a :: b :: r) = Char.ofNat 0x15 :: db.lowerStr (a :: b :: r) := by
    rw [caseMarked, if_neg (fun h => h1 h.2),
      if_pos ⟨hu a (by simp), fun x hx => hu x (List.mem_cons_of_mem _ hx)⟩]
  rw [e, hlow]
  simp [caseMarked, hc]

/-- **C63**.  A word that does not start with a capital letter keeps its letters; only the end marker
is added. -/
theorem C63_small_words_unchanged (db : CharTables) (w : List Char) (hw : IsWord db w)
    (h : ∀ c, w.head? = some c → db.isUppercase c = false) :
    process db w = .ok (w ++ [Char.ofNat 0x16]) := by
  rw [process_word _ hw]
  cases w with
  | nil => rfl
  | cons a r => simp [caseMarked, h a rfl]

-- concrete cases
example : IsWord asciiOnly "Hello".toList ∧ IsWord asciiOnly ['h', 'i'] ∧
    asciiOnly.isUppercase 'H' = true ∧ asciiOnly.isUppercase (asciiOnly.lowerFirst 'H') = false := by
  refine ⟨⟨by decide, by decide⟩, ⟨by decide, by decide⟩, rfl, rfl⟩

example : asciiOnly.lowerStr ['A', 'B', 'C'] = ['a', 'b', 'c'] ∧
    (∀ x ∈ ['A', 'B', 'C'], asciiOnly.isUppercase x = true) ∧ asciiOnly.isLowercase 'B' = false ∧
    asciiOnly.isUppercase 'a' = false := by
  refine ⟨rfl, by decide, rfl, rfl⟩

example : spaced [['a', 'b'], ['C'], ['d']] = "ab C d".toList ∧
    process asciiOnly "ab C d".toList = .ok "ab\x16\x14c\x16d\x16".toList := ⟨rfl, rfl⟩

end Tokens.Props
