import Verif.Proofs.Chars

/-!
C86, C87: the tokenizer over characters (`/repo/src/chars`, not part of the program).
-/

namespace Tokens.Props
open Tokens Tokens.Chars Tokens.Spec.Chars

/-- A cut of a text that `process_slice` may report. -/
theorem chars_slice {ts : CSet} (hm : Made ts) (hs : ShortEncodings ts) (cs : Text) :
    ∃ st ps, processSlice ts (utf8Encode cs) = .ok st ∧ Cheapest ts cs ps ∧ Counted ts st [ps] := by
  rcases slice_spec (made_ok hm) (utf8Encode cs) with ⟨st, ps, cs', h1, h2, h3, h4, h5⟩ | ⟨_, h⟩
  · have := utf8Encode_inj h2
    subst this
    refine ⟨st, ps, h1, ⟨h3, fun qs hqs => ?_⟩, ?_, ?_, ?_⟩
    · rw [← pcost_cost hs, ← pcost_cost hs]
      exact h4 qs hqs
    · rw [h5.total, pcost_cost hs]; simp
    · rw [h5.literals]; simp
    · intro hl i j
      rw [h5.pairs, pairsOf_eq h3 hl]
      simp
  · rw [validUtf8_encode] at h
    cases h

/-- C86. For every token set made with the methods and every text, the statistics are those of one way of
cutting the text into tokens and single characters, and no way of cutting it takes fewer tokens. -/
theorem C86_slice {ts : CSet} (hm : Made ts) (hs : ShortEncodings ts) (cs : Text) (st : CStats)
    (h : processSlice ts (utf8Encode cs) = .ok st) :
    ∃ ps, Cheapest ts cs ps ∧ Counted ts st [ps] := by
  obtain ⟨st', ps, h1, h2, h3⟩ := chars_slice hm hs cs
  rw [h1] at h
  have := Except.ok.inj h
  subst this
  exact ⟨ps, h2, h3⟩

/-- C86. The total of a text is the least number of tokens that it can be cut into. -/
theorem C86_least {ts : CSet} (hm : Made ts) (hs : ShortEncodings ts) (cs : Text) (st : CStats)
    (h : processSlice ts (utf8Encode cs) = .ok st) :
    (∃ ps, Spells ts ps cs ∧ st.total = cost ts ps) ∧ ∀ qs, Spells ts qs cs → st.total ≤ cost ts qs := by
  obtain ⟨ps, h1, h2⟩ := C86_slice hm hs cs st h
  have ht : st.total = cost ts ps := by rw [h2.total]; simp
  exact ⟨⟨ps, h1.spells, ht⟩, fun qs hq => by rw [ht]; exact h1.least qs hq⟩

theorem counted_empty (ts : CSet) : Counted ts CStats.empty [] := ⟨rfl, rfl, fun _ _ _ => rfl⟩

theorem counted_merge {ts : CSet} {a b : CStats} {xs ys : List (List Piece)} (ha : Counted ts a xs)
    (hb : Counted ts b ys) : Counted ts (a.merge b) (xs ++ ys) := by
  refine ⟨?_, ?_, ?_⟩
  · rw [List.map_append, List.sum_append, ← ha.total, ← hb.total]; rfl
  · rw [List.map_append, List.sum_append, ← ha.literals, ← hb.literals]; rfl
  · intro hl i j
    rw [List.map_append, List.sum_append, ← ha.pairs hl, ← hb.pairs hl]; rfl

theorem chars_samples {ts : CSet} (hm : Made ts) (hs : ShortEncodings ts) (texts : List Text) (st0 : CStats)
    (cut0 : List (List Piece)) (h0 : Counted ts st0 cut0) :
    ∃ st cut, tokenizeFrom ts (texts.map utf8Encode) st0 = .ok st ∧ cut.length = texts.length ∧
      (∀ p ∈ texts.zip cut, Cheapest ts p.1 p.2) ∧ Counted ts st (cut0 ++ cut) := by
  induction texts generalizing st0 cut0 with
  | nil => exact ⟨st0, [], rfl, rfl, (fun p hp => by cases hp), by rw [List.append_nil]; exact h0⟩
  | cons x xs ih =>
    obtain ⟨s, ps, h1, h2, h3⟩ := chars_slice hm hs x
    obtain ⟨st, cut, h4, h5, h6, h7⟩ := ih (st0.merge s) (cut0 ++ [ps]) (counted_merge h0 h3)
    refine ⟨st, ps :: cut, ?_, by simp [h5], ?_, by rw [List.append_assoc] at h7; exact h7⟩
    · rw [List.map_cons]
      unfold tokenizeFrom
      rw [h1, R.ok_bind]
      exact h4
    · intro p hp
      rw [List.zip_cons_cons, List.mem_cons] at hp
      rcases hp with rfl | hp
      · exact h2
      · exact h6 p hp

/-- C86. The same for any number of samples: `tokenize` always returns, and its statistics are the sums for
one cheapest cut of every sample. -/
theorem C86_samples {ts : CSet} (hm : Made ts) (hs : ShortEncodings ts) (texts : List Text) :
    ∃ st cut, tokenize ts (texts.map utf8Encode) = .ok st ∧ cut.length = texts.length ∧
      (∀ p ∈ texts.zip cut, Cheapest ts p.1 p.2) ∧ Counted ts st cut := by
  obtain ⟨st, cut, h1, h2, h3, h4⟩ := chars_samples hm hs texts CStats.empty [] (counted_empty ts)
  exact ⟨st, cut, h1, h2, h3, h4⟩

/-- C87. `process_slice` returns for exactly the byte strings that are UTF-8; for all others its assertion
fails. -/
theorem C87_accepts {ts : CSet} (hm : Made ts) (b : Bytes) :
    ((∃ st, processSlice ts b = .ok st) ↔ validUtf8 b = true) ∧
      (processSlice ts b = .error .assertFailed ↔ validUtf8 b = false) := by
  rcases slice_spec (made_ok hm) b with ⟨st, ps, cs, h1, h2, _⟩ | ⟨h1, h2⟩
  · have hv : validUtf8 b = true := by rw [h2]; exact validUtf8_encode cs
    refine ⟨⟨fun _ => hv, fun _ => ⟨st, h1⟩⟩, ?_⟩
    rw [h1, hv]
    constructor
    · intro h; cases h
    · intro h; cases h
  · refine ⟨?_, ⟨fun _ => h2, fun _ => h1⟩⟩
    rw [h2]
    constructor
    · rintro ⟨st, h⟩; rw [h1] at h; cases h
    · intro h; cases h

/-! ### Example -/

/-- The set of the unit test `test_tokenize`. -/
def charsExample : CSet :=
  (((((CSet.new 2).addCharToken 'A').addCharToken 'B').addEncoding 'C' [3, 0]).addEncoding 'D' [3, 0, 1]
    |>.addString ['D', 'A']).addString ['A', 'A', 'A']

example : Made charsExample :=
  .string _ (.string _ (.encoding _ _ (.encoding _ _ (.char _ (.char _ (.new 2))))))

theorem charsExample_short : ShortEncodings charsExample := by
  intro c
  unfold encLength
  split
  · show (if c = 'D' then [3, 0, 1] else if c = 'C' then [3, 0] else if c = 'B' then [3] else
      if c = 'A' then [2] else []).length < 256
    repeat' split
    all_goals simp
  · show (match (none : Option (List Nat)) with | some e => e.length | none => 32) < 256
    decide

/-- A text of the example set: `DA`, `A`, `A`. -/
theorem charsExample_spells : Spells charsExample [.tok 4, .tok 2, .tok 2] ['D', 'A', 'A', 'A'] :=
  .cons (s := ['D', 'A']) (.tok (t := .str ['D', 'A']) rfl rfl)
    (.cons (s := ['A']) (.tok (t := .char 'A') rfl rfl)
      (.cons (s := ['A']) (.tok (t := .char 'A') rfl rfl) .nil))

example : ∃ st, processSlice charsExample (utf8Encode ['D', 'A', 'A', 'A']) = .ok st ∧ st.total ≤ 3 := by
  have hm : Made charsExample :=
    .string _ (.string _ (.encoding _ _ (.encoding _ _ (.char _ (.char _ (.new 2))))))
  obtain ⟨st, ps, h1, h2, h3⟩ := chars_slice hm charsExample_short ['D', 'A', 'A', 'A']
  exact ⟨st, h1, (C86_least hm charsExample_short _ st h1).2 _ charsExample_spells⟩

example : validUtf8 [0x80] = false ∧ validUtf8 (utf8Encode ['D', 'A']) = true := by
  refine ⟨?_, validUtf8_encode _⟩
  cases h : validUtf8 [0x80] with
  | false => rfl
  | true =>
    obtain ⟨cs, hcs⟩ := validUtf8_iff.1 h
    have := utf8Encode_head cs 0x80 (by rw [← hcs]; rfl)
    exact absurd this (by decide)

end Tokens.Props
