import Verif.Proofs.Show
import Verif.Proofs.Examples
import Mathlib.Data.List.Dedup

/-!
# Property C75: the lines the optimizer prints

`Show.ShowDiff plain before after line`: `line` is what is printed when the token set changes from
`before` to `after` (`Verif/Model/Show.lean`; `plain` is the table of printable characters of the
standard library, which may be any).
-/

namespace Tokens.Props
open Tokens Show

/-- **C75**.  Different tokens are printed differently. -/
theorem C75_token_text_unique (plain : Char → Bool) (t t' : Token) (h : showToken plain t = showToken plain t') :
    t = t' := showToken_inj plain h

/-- **C75**.  The line shows the tokens that were removed, an arrow, and the tokens that were added: each
of them once, no others, in alphabetical order of their texts. -/
theorem C75_line (plain : Char → Bool) (before after : TokenSet) (line : Text)
    (h : ShowDiff plain before after line) :
    ∃ removed added : List Token,
      line = joined [' '] (removed.map (showToken plain)) ++ [' ', '-', '>', ' '] ++
        joined [' '] (added.map (showToken plain)) ∧
      removed.Nodup ∧ added.Nodup ∧
      (∀ t, t ∈ removed ↔ t ∈ before.tokens ∧ t ∉ after.tokens) ∧
      (∀ t, t ∈ added ↔ t ∈ after.tokens ∧ t ∉ before.tokens) ∧
      removed.Pairwise (fun a b => utf8Encode (showToken plain a) ≤ utf8Encode (showToken plain b)) ∧
      added.Pairwise (fun a b => utf8Encode (showToken plain a) ≤ utf8Encode (showToken plain b)) := by
  obtain ⟨removed, added, h1, h2, h3, h4, rfl⟩ := h
  have sorted : ∀ l : List Token, ((l.map (showToken plain)).mergeSort strLe).Pairwise
      (fun a b => utf8Encode a ≤ utf8Encode b) := by
    intro l
    have := List.pairwise_mergeSort (le := strLe) strLe_trans strLe_total (l.map (showToken plain))
    exact this.imp (fun h => by simpa [strLe] using h)
  obtain ⟨r', p1, e1⟩ := sorted_texts plain removed
  obtain ⟨a', p2, e2⟩ := sorted_texts plain added
  have s1 := sorted removed
  have s2 := sorted added
  rw [e1] at s1 ⊢
  rw [e2] at s2 ⊢
  rw [List.pairwise_map] at s1 s2
  exact ⟨r', a', rfl, p1.nodup_iff.2 h1, p2.nodup_iff.2 h3, fun t => by rw [p1.mem_iff, h2],
    fun t => by rw [p2.mem_iff, h4], s1, s2⟩

/-- **C75**.  There is exactly one such line: the unknown order in which a hash set lists its members
does not show. -/
theorem C75_line_determined (plain : Char → Bool) (before after : TokenSet) :
    ∃ line, ShowDiff plain before after line ∧ ∀ line', ShowDiff plain before after line' → line' = line := by
  have ex : ∀ a b : List Token, ∃ l : List Token, l.Nodup ∧ ∀ t, t ∈ l ↔ t ∈ a ∧ t ∉ b := by
    intro a b
    refine ⟨(a.filter (fun t => decide (t ∉ b))).dedup, List.nodup_dedup _, ?_⟩
    intro t
    simp
  obtain ⟨r, r1, r2⟩ := ex before.tokens after.tokens
  obtain ⟨a, a1, a2⟩ := ex after.tokens before.tokens
  refine ⟨_, ⟨r, a, r1, r2, a1, a2, rfl⟩, ?_⟩
  rintro line' ⟨r', a', r1', r2', a1', a2', rfl⟩
  have sort_eq : ∀ l l' : List Token, l.Nodup → l'.Nodup → (∀ t, t ∈ l ↔ t ∈ l') →
      (l.map (showToken plain)).mergeSort strLe = (l'.map (showToken plain)).mergeSort strLe := by
    intro l l' h1 h2 h3
    have hp : l.Perm l' := (List.perm_ext_iff_of_nodup h1 h2).2 h3
    have hp' : ((l.map (showToken plain)).mergeSort strLe).Perm ((l'.map (showToken plain)).mergeSort strLe) :=
      ((List.mergeSort_perm _ _).trans (hp.map _)).trans (List.mergeSort_perm _ _).symm
    refine hp'.eq_of_pairwise (le := fun a b => strLe a b = true) ?_
      (List.pairwise_mergeSort strLe_trans strLe_total _) (List.pairwise_mergeSort strLe_trans strLe_total _)
    intro a b _ _ h1 h2
    exact strLe_antisymm a b h1 h2
  rw [sort_eq r' r r1' r1 (fun t => by rw [r2, r2']), sort_eq a' a a1' a1 (fun t => by rw [a2, a2'])]

/-- **C75**.  A line tells exactly what was exchanged: if the same line is printed for two changes, the
same tokens were removed and the same tokens were added. -/
theorem C75_line_readable (plain : Char → Bool) (a b a' b' : TokenSet) (line : Text)
    (h : ShowDiff plain a b line) (h' : ShowDiff plain a' b' line) :
    (∀ t, (t ∈ a.tokens ∧ t ∉ b.tokens) ↔ (t ∈ a'.tokens ∧ t ∉ b'.tokens)) ∧
    (∀ t, (t ∈ b.tokens ∧ t ∉ a.tokens) ↔ (t ∈ b'.tokens ∧ t ∉ a'.tokens)) := by
  obtain ⟨r, s, e, _, _, h1, h2, _⟩ := C75_line plain a b line h
  obtain ⟨r', s', e', _, _, h1', h2', _⟩ := C75_line plain a' b' line h'
  rw [e, List.append_assoc, List.append_assoc] at e'
  obtain ⟨rfl, g⟩ := joined_split plain r r' _ _ (.inr ⟨_, rfl⟩) (.inr ⟨_, rfl⟩) e'
  have g : joined [' '] (s.map (showToken plain)) = joined [' '] (s'.map (showToken plain)) := by
    simpa using g
  obtain ⟨rfl, _⟩ := joined_split plain s s' [] [] (.inl rfl) (.inl rfl) (by rw [g])
  exact ⟨fun t => by rw [← h1, h1'], fun t => by rw [← h2, h2']⟩

-- concrete lines
example : showToken (fun c => c ≠ Char.ofNat 0x14) (.str [0x14, 97, 34, 10]) = "\"\\u{14}a\\\"\\n\"".toList ∧
    showToken (fun _ => true) (.str [200, 7]) = "[200, 7]".toList ∧
    showToken (fun _ => true) (.ext 12) = "12".toList := by
  refine ⟨?_, ?_, rfl⟩
  · have : utf8Decode [0x14, 97, 34, 10] = some [Char.ofNat 0x14, 'a', '"', '\n'] :=
      utf8Decode_iff.2 (by decide +kernel)
    simp only [showToken, showBytes, this]
    decide +kernel
  · have : utf8Decode [200, 7] = none := by
      cases h : utf8Decode [200, 7] with
      | none => rfl
      | some cs =>
        exfalso
        have : validUtf8 [200, 7] = true := by simp [validUtf8, h]
        revert this
        decide +kernel
    simp only [showToken, showBytes, this]
    decide +kernel

end Tokens.Props
