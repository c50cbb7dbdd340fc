import Verif.Spec.WordCost
import Verif.Props.Readme
import Verif.Props.Batch
import Verif.Props.Processing
import Verif.Proofs.BpeExample
import Verif.Proofs.Sizes
import Verif.Proofs.Processing

/-! C81: a word costs one token (README, "Processing"). -/

set_option linter.unusedSimpArgs false
set_option linter.unusedVariables false

namespace Tokens
open Spec

/-- There is a segmentation into tokens of the text with `n` output tokens. -/
def InTokens (ts : TokenSet) (x : Bytes) (n : Nat) : Prop :=
  ∃ ps, Spells ts ps x ∧ (output ts ps).length = n

theorem InTokens.nil (ts : TokenSet) : InTokens ts [] 0 := ⟨[], .nil, rfl⟩

theorem InTokens.append {ts : TokenSet} {x y : Bytes} {n k : Nat} (h1 : InTokens ts x n) (h2 : InTokens ts y k) :
    InTokens ts (x ++ y) (n + k) := by
  obtain ⟨ps, a, b⟩ := h1
  obtain ⟨qs, c, d⟩ := h2
  exact ⟨ps ++ qs, a.append c, by rw [output, List.flatMap_append, List.length_append]; exact congrArg₂ _ b d⟩

theorem InTokens.one {ts : TokenSet} {x : Bytes} (h : x ∈ strTokens ts) : InTokens ts x 1 := by
  obtain ⟨i, hi⟩ := List.mem_iff_getElem?.1 (mem_strTokens.1 h)
  refine ⟨[.tok i], ?_, rfl⟩
  have : Spells ts [.tok i] (x ++ []) := .cons (by simp only [Piece.string, hi]) .nil
  simpa using this

theorem InTokens.bytes {ts : TokenSet} (x : Bytes) (h : ∀ b ∈ x, [b] ∈ strTokens ts) : InTokens ts x x.length := by
  induction x with
  | nil => exact .nil ts
  | cons b x ih =>
    have := (InTokens.one (h b (.head _))).append (ih (fun c hc => h c (.tail _ hc)))
    rw [Nat.add_comm] at this
    exact this

theorem utf8_app (a b : List Char) : utf8Encode (a ++ b) = utf8Encode a ++ utf8Encode b := by
  simp [utf8Encode]

theorem capitalized_iff (db : CharTables) (c : Char) (r : List Char) : capitalized db (c :: r) = true ↔
    db.isUppercase c = true ∧ ∀ x ∈ r, db.isLowercase x = true := by
  simp [capitalized]

theorem allCaps_iff (db : CharTables) (c : Char) (r : List Char) : allCaps db (c :: r) = true ↔
    db.isUppercase c = true ∧ ∀ x ∈ r, db.isUppercase x = true := by
  simp [allCaps]

theorem marked_word {ts : TokenSet} {db : CharTables} {w : List Char}
    (hw : utf8Encode (smallWord db w ++ [Char.ofNat 0x16]) ∈ strTokens ts)
    (h1 : capitalized db w → utf8Encode [Char.ofNat 0x14] ∈ strTokens ts)
    (h2 : allCaps db w → utf8Encode [Char.ofNat 0x15] ∈ strTokens ts) :
    InTokens ts (utf8Encode (caseMarked db w ++ [Char.ofNat 0x16])) (1 + markers db w) := by
  cases w with
  | nil => exact InTokens.one hw
  | cons c r =>
    by_cases hc : capitalized db (c :: r) = true
    · have hc' := (capitalized_iff db c r).1 hc
      have e : markers db (c :: r) = 1 := by unfold markers; rw [hc]; rfl
      have e1 : caseMarked db (c :: r) = Char.ofNat 0x14 :: db.lowerFirst c :: r := by
        rw [caseMarked, if_pos hc']
      have e2 : smallWord db (c :: r) = db.lowerFirst c :: r := by
        unfold smallWord; simp only; rw [if_pos hc]
      rw [e2] at hw
      rw [e, e1]
      exact (InTokens.one (h1 hc)).append (InTokens.one hw)
    · have hc' := fun h => hc ((capitalized_iff db c r).2 h)
      by_cases ha : allCaps db (c :: r) = true
      · have e : markers db (c :: r) = 1 := by unfold markers; rw [ha, Bool.or_true]; rfl
        have e1 : caseMarked db (c :: r) = Char.ofNat 0x15 :: db.lowerStr (c :: r) := by
          rw [caseMarked, if_neg hc', if_pos ((allCaps_iff db c r).1 ha)]
        have e2 : smallWord db (c :: r) = db.lowerStr (c :: r) := by
          unfold smallWord; simp only; rw [if_neg hc, if_pos ha]
        rw [e2] at hw
        rw [e, e1]
        exact (InTokens.one (h2 ha)).append (InTokens.one hw)
      · have e : markers db (c :: r) = 0 := by
          unfold markers
          rw [Bool.eq_false_iff.2 hc, Bool.eq_false_iff.2 ha]; rfl
        have e1 : caseMarked db (c :: r) = c :: r := by
          rw [caseMarked, if_neg hc', if_neg (fun h => ha ((allCaps_iff db c r).2 h))]
        have e2 : smallWord db (c :: r) = c :: r := by
          unfold smallWord; simp only; rw [if_neg hc, if_neg ha]
        rw [e2] at hw
        rw [e, e1]
        exact InTokens.one hw

theorem rewritten_cost {ts : TokenSet} {db : CharTables} (items : List Item)
    (hw : ∀ w ∈ wordsOf items, utf8Encode (smallWord db w ++ [Char.ofNat 0x16]) ∈ strTokens ts)
    (h1 : ∀ w ∈ wordsOf items, capitalized db w → utf8Encode [Char.ofNat 0x14] ∈ strTokens ts)
    (h2 : ∀ w ∈ wordsOf items, allCaps db w → utf8Encode [Char.ofNat 0x15] ∈ strTokens ts)
    (hb : ∀ b ∈ utf8Encode (betweenWords items), [b] ∈ strTokens ts) :
    InTokens ts (utf8Encode (rewritten db items)) ((wordsOf items).length + ((wordsOf items).map (markers db)).sum +
      (utf8Encode (betweenWords items)).length) := by
  fun_induction rewritten db items with
  | case1 => exact .nil ts
  | case2 w v l ih =>
    simp only [wordsOf, betweenWords] at *
    have g1 := marked_word (hw w (.head _)) (h1 w (.head _)) (h2 w (.head _))
    have g2 := ih (fun x hx => hw x (.tail _ hx)) (fun x hx => h1 x (.tail _ hx)) (fun x hx => h2 x (.tail _ hx)) hb
    have := g1.append g2
    rw [← utf8_app] at this
    simp only [List.length_cons, List.map_cons, List.sum_cons] at this ⊢
    convert this using 1
    omega
  | case3 w l hne ih =>
    have e : betweenWords (.word w :: l) = betweenWords l := by
      rw [betweenWords]
      intro v l' e
      exact hne v l' e
    rw [e] at hb ⊢
    simp only [wordsOf] at *
    have g1 := marked_word (hw w (.head _)) (h1 w (.head _)) (h2 w (.head _))
    have g2 := ih (fun x hx => hw x (.tail _ hx)) (fun x hx => h1 x (.tail _ hx)) (fun x hx => h2 x (.tail _ hx)) hb
    have := g1.append g2
    rw [← utf8_app] at this
    simp only [List.length_cons, List.map_cons, List.sum_cons] at this ⊢
    convert this using 1
    omega
  | case4 c l ih =>
    simp only [wordsOf, betweenWords] at *
    rw [show c :: betweenWords l = [c] ++ betweenWords l from rfl, utf8_app] at hb ⊢
    have g1 := InTokens.bytes (utf8Encode [c]) (fun b h => hb b (List.mem_append_left _ h))
    have g2 := ih hw h1 h2 (fun b h => hb b (List.mem_append_right _ h))
    have := g1.append g2
    rw [← utf8_app] at this
    have e : utf8Encode (c :: rewritten db l) = utf8Encode ([c] ++ rewritten db l) := rfl
    rw [e, List.length_append]
    convert this using 1
    omega

end Tokens

namespace Tokens.Props
open Tokens Spec Processing Batch

/-- **C81**.  A word costs one token, wherever it stands and however it is capitalized; capitals cost one
more, single spaces between words nothing.  For every text and every token set that has tokens for the
small forms of its words (with the end marker), for the case markers and for the bytes between the words:
the processed text is tokenized with at most one token for each word, one for each capitalized or
all-capitals word, and one for each byte outside the words, not counting single spaces between words. -/
theorem C81_words_cost_one_token (db : CharTables) (ts : TokenSet) (hts : Tokenizable ts) (hseq : SeqsInRange ts) (items : List Item)
    (hm : Maximal db items)
    (hw : ∀ w ∈ wordsOf items, utf8Encode (smallWord db w ++ [Char.ofNat 0x16]) ∈ strTokens ts)
    (h1 : ∀ w ∈ wordsOf items, capitalized db w → utf8Encode [Char.ofNat 0x14] ∈ strTokens ts)
    (h2 : ∀ w ∈ wordsOf items, allCaps db w → utf8Encode [Char.ofNat 0x15] ∈ strTokens ts)
    (hb : ∀ b ∈ utf8Encode (betweenWords items), [b] ∈ strTokens ts) :
    ∃ z, process db (textOf items) = .ok z ∧ ∀ n : Option Nat, ∃ st : TokenStats,
      tokenizeFileSync ts [utf8Encode z] n = .ok st ∧
      st.totalTokens ≤ (wordsOf items).length + ((wordsOf items).map (markers db)).sum +
        (utf8Encode (betweenWords items)).length := by
  obtain ⟨items', g1, g2, g3, g4⟩ := C22_process_is_documented db (textOf items)
  have := g4 items hm rfl
  subst this
  refine ⟨_, g3, ?_⟩
  intro n
  obtain ⟨st, hrun⟩ := sync_exists hts hseq [_] n
  refine ⟨st, hrun, ?_⟩
  obtain ⟨-, -, -, seg, s1, s2⟩ := C05_accounting ts hseq _ n st hrun
  obtain ⟨ps, p1, p2⟩ := rewritten_cost items hw h1 h2 hb
  have h3 := (s1 _ (.head _)).2 ps p1
  rw [s2, ← p2]
  simpa using h3

/-- **C81** (the README's second point).  A sequence of words separated by single spaces, each of which has
its token, is tokenized with at most one token per word. -/
theorem C81_spaced_words (db : CharTables) (hsp : db.isAlphabetic ' ' = false) (ts : TokenSet)
    (hts : Tokenizable ts) (hseq : SeqsInRange ts) (ws : List (List Char)) (h : ∀ w ∈ ws, IsWord db w)
    (ht : ∀ w ∈ ws, ∀ z, process db w = .ok z → utf8Encode z ∈ strTokens ts) :
    ∃ z, process db (spaced ws) = .ok z ∧ ∀ n : Option Nat, ∃ st : TokenStats,
      tokenizeFileSync ts [utf8Encode z] n = .ok st ∧ st.totalTokens ≤ ws.length := by
  obtain ⟨f, h1, h2⟩ := C63_single_spaces_cost_nothing db hsp ws h
  refine ⟨_, h2, ?_⟩
  intro n
  obtain ⟨st, hrun⟩ := sync_exists hts hseq [_] n
  refine ⟨st, hrun, ?_⟩
  obtain ⟨-, -, -, seg, s1, s2⟩ := C05_accounting ts hseq _ n st hrun
  have key : InTokens ts (utf8Encode (ws.map f).flatten) ws.length := by
    clear h2 hrun s1 s2 h
    induction ws with
    | nil => exact .nil ts
    | cons w ws ih =>
      have := (InTokens.one (ht w (.head _) _ (h1 w (.head _)))).append
        (ih (fun v hv => ht v (.tail _ hv)) (fun v hv => h1 v (.tail _ hv)))
      rw [← utf8_app, Nat.add_comm] at this
      exact this
  obtain ⟨ps, p1, p2⟩ := key
  have h3 := (s1 _ (.head _)).2 ps p1
  rw [s2, ← p2]
  simpa using h3

/-! ### Examples -/

/-- The bytes set with a token for the word `ab`. -/
def wordSet : TokenSet := { Example.bytes0 with tokens := Example.bytes0.tokens ++ [.str [97, 98, 0x16]] }

theorem wordSet_usable : Usable wordSet := by
  refine usable_add Example.bytes0_usable (s := [97, 98, 0x16]) ?_ (i := 256) ?_
  · intro h; obtain ⟨b, hb⟩ := Example.bytes0_str h; simp at hb
  · have := TokenSet.addToken_eq Example.bytes0 [97, 98, 0x16] (by simp)
    rw [Example.bytes0_len] at this
    exact this

theorem wordSet_byte (b : UInt8) : [b] ∈ strTokens wordSet :=
  mem_strTokens.2 (List.mem_append_left _ (List.mem_of_getElem? (Example.bytes0_get b)))

theorem wordSet_word : [97, 98, 0x16] ∈ strTokens wordSet :=
  mem_strTokens.2 (List.mem_append_right _ (List.mem_singleton.2 rfl))

/-- `Ab ab, AB`: three words, two markers, and the comma and the space after it. -/
example : ∃ z, process asciiOnly ['A', 'b', ' ', 'a', 'b', ',', ' ', 'A', 'B'] = .ok z ∧ ∀ n, ∃ st,
    tokenizeFileSync wordSet [utf8Encode z] n = .ok st ∧ st.totalTokens ≤ 7 :=
  C81_words_cost_one_token asciiOnly wordSet wordSet_usable.accepted wordSet_usable.inRange
    [.word ['A', 'b'], .other ' ', .word ['a', 'b'], .other ',', .other ' ', .word ['A', 'B']]
    (by simp [Spec.Maximal]; decide)
    (by
      intro w hw
      simp only [wordsOf, List.mem_cons, List.not_mem_nil, or_false] at hw
      rcases hw with rfl | rfl | rfl <;> exact wordSet_word)
    (fun _ _ _ => wordSet_byte 0x14) (fun _ _ _ => wordSet_byte 0x15) (fun b _ => wordSet_byte b)

/-- Two words with one space. -/
example : ∃ z, process asciiOnly ['a', 'b', ' ', 'a', 'b'] = .ok z ∧ ∀ n, ∃ st,
    tokenizeFileSync wordSet [utf8Encode z] n = .ok st ∧ st.totalTokens ≤ 2 :=
  C81_spaced_words asciiOnly rfl wordSet wordSet_usable.accepted wordSet_usable.inRange [['a', 'b'], ['a', 'b']]
    (by simp [IsWord]; decide)
    (by
      intro w hw z hz
      obtain rfl : w = ['a', 'b'] := by simpa using hw
      have : process asciiOnly ['a', 'b'] = .ok (['a', 'b'] ++ [Char.ofNat 0x16]) :=
        C63_small_words_unchanged asciiOnly _ (by simp [IsWord]; decide) (by
          intro c hc
          obtain rfl : 'a' = c := by simpa using hc
          decide)
      rw [this] at hz
      cases hz
      exact wordSet_word)

end Tokens.Props
