import Verif.Proofs.CharsShow
import Verif.Props.Show

/-!
# Property C121: the texts that show tokens in the modules outside the program

Read together with `Verif/Spec/CharsShow.lean`.
-/

namespace Tokens.Props
open Tokens Spec Chars Show

/-- **C121**.  Every token is shown differently, for each of the two kinds of tokens. -/
theorem C121_token (plain : Char → Bool) :
    Function.Injective (CToken.display plain) ∧ Function.Injective (Old.formatToken plain) := by
  constructor
  · intro a b h
    exact (cDisplay_split plain a b [] [] (by intro c hc; simp at hc) (by intro c hc; simp at hc) (by rw [h])).1
  · intro a b h
    exact Token.str.inj (showToken_inj plain (a₁ := .str a) (a₂ := .str b) h)

/-- **C121**.  A character-based set whose encodings list existing tokens can be shown. -/
theorem C121_shown (plain : Char → Bool) (ts : CSet) (h : EncodingsInRange ts) (keys : List Char) (hk : KeysOf ts keys) :
    ∃ x, ts.display plain keys = .ok x := by
  unfold CSet.display
  obtain ⟨lo, hlo⟩ := loLines_exists (plain := plain) (ts := ts) (cs := loChars)
    (fun c hc => h.1 c ((mem_loChars c).1 hc))
  obtain ⟨hi, hhi⟩ := hiLines_exists (plain := plain) (ts := ts)
    (cs := keys.mergeSort (fun a b => decide (a.toNat ≤ b.toNat))) (fun c hc => by
      rw [List.mem_mergeSort] at hc
      obtain ⟨enc, he⟩ := Option.isSome_iff_exists.1 ((hk.2 c).1 hc)
      exact ⟨enc, he, h.2 c enc he⟩)
  rw [hlo, R.ok_bind, hhi, R.ok_bind]
  exact ⟨_, rfl⟩

/-- **C121**.  The order in which the map of characters is iterated does not matter. -/
theorem C121_order (plain : Char → Bool) (ts : CSet) (keys keys' : List Char) (hk : KeysOf ts keys)
    (hk' : KeysOf ts keys') : ts.display plain keys = ts.display plain keys' := by
  have hp : keys.Perm keys' := (List.perm_ext_iff_of_nodup hk.1 hk'.1).2 (fun c => (hk.2 c).trans (hk'.2 c).symm)
  have e : keys.mergeSort (fun a b => decide (a.toNat ≤ b.toNat)) =
      keys'.mergeSort (fun a b => decide (a.toNat ≤ b.toNat)) := by
    have tr : ∀ a b c : Char, decide (a.toNat ≤ b.toNat) = true → decide (b.toNat ≤ c.toNat) = true →
        decide (a.toNat ≤ c.toNat) = true := by
      intro a b c h1 h2
      have h1 := of_decide_eq_true h1
      have h2 := of_decide_eq_true h2
      exact decide_eq_true (Nat.le_trans h1 h2)
    have tot : ∀ a b : Char, (decide (a.toNat ≤ b.toNat) || decide (b.toNat ≤ a.toNat)) = true := by
      intro a b
      rcases Nat.le_total a.toNat b.toNat with h | h <;> simp [h]
    refine List.Perm.eq_of_pairwise (le := fun a b : Char => decide (a.toNat ≤ b.toNat) = true) ?_
      (List.pairwise_mergeSort tr tot _) (List.pairwise_mergeSort tr tot _)
      ((List.mergeSort_perm _ _).trans (hp.trans (List.mergeSort_perm _ _).symm))
    intro a b _ _ h1 h2
    exact char_toNat_inj (Nat.le_antisymm (of_decide_eq_true h1) (of_decide_eq_true h2))
  unfold CSet.display
  rw [e]

/-- **C121**.  The text determines the set: its tokens in order, which characters have an encoding, and the tokens
of each encoding. -/
theorem C121_readable (plain : Char → Bool) (a b : CSet) (ka kb : List Char) (ha : KeysOf a ka) (hb : KeysOf b kb)
    (hha : HighKeys a) (hhb : HighKeys b) (x : Text) (h1 : a.display plain ka = .ok x) (h2 : b.display plain kb = .ok x) :
    a.tokens = b.tokens ∧ ∀ c, writtenFor a c = writtenFor b c := by
  have parts : ∀ (ts : CSet) (ks : List Char), KeysOf ts ks → HighKeys ts → ts.display plain ks = .ok x →
      ∃ l : List (Char × List CToken), x = tokenLines plain 0 ts.tokens ++ '\n' :: l.flatMap (entryLine plain) ∧
        ∀ c v, writtenFor ts c = some v ↔ (c, v) ∈ l.map (fun e => (e.1, e.2.map some)) := by
    intro ts ks hk hh h
    unfold CSet.display at h
    cases hlo : loLines plain ts loChars with
    | error e => rw [hlo] at h; cases h
    | ok lo =>
      rw [hlo, R.ok_bind] at h
      cases hhi : hiLines plain ts (ks.mergeSort (fun a b => decide (a.toNat ≤ b.toNat))) with
      | error e => rw [hhi] at h; cases h
      | ok hi =>
        rw [hhi, R.ok_bind] at h
        obtain ⟨l, g1, g2⟩ := loLines_ok hlo
        obtain ⟨m, g3, g4⟩ := hiLines_ok hhi
        refine ⟨l ++ m, ?_, ?_⟩
        · rw [← Except.ok.inj h, g2, g4, List.flatMap_append]
          simp
        · intro c v
          rw [List.map_append, List.mem_append, entries_mem g1, entries_mem g3, List.mem_mergeSort, mem_loChars,
            hk.2 c]
          unfold writtenFor
          by_cases hc : c.toNat < 256
          · rw [if_pos hc]
            have hno : ¬ (ts.hiEnc c).isSome = true := fun hs => by have := hh c hs; omega
            constructor
            · intro hv
              left
              refine ⟨hc, ?_⟩
              split at hv
              · cases hv
              · rename_i hne
                simp only [hne, if_false, Option.map_some]
                exact hv
            · rintro (⟨_, hv⟩ | ⟨hs, _⟩)
              · split
                · rename_i he
                  rw [if_pos he] at hv
                  cases hv
                · rename_i he
                  rw [if_neg he, Option.map_some] at hv
                  exact hv
              · exact absurd hs hno
          · rw [if_neg hc]
            constructor
            · intro hv
              right
              refine ⟨?_, hv⟩
              cases he : ts.hiEnc c with
              | none => rw [he] at hv; cases hv
              | some _ => rfl
            · rintro (⟨hs, _⟩ | ⟨_, hv⟩)
              · exact absurd hs hc
              · exact hv
  obtain ⟨l, e1, m1⟩ := parts a ka ha hha h1
  obtain ⟨m, e2, m2⟩ := parts b kb hb hhb h2
  obtain ⟨ht, hl⟩ := tokenLines_split plain _ _ 0 _ _ (e1.symm.trans e2)
  have hl := entryLines_split plain l m hl
  refine ⟨ht, fun c => ?_⟩
  apply Option.ext
  intro v
  rw [m1 c v, m2 c v, hl]

-- a set with an ext token, the characters a and β, and a string; both characters are encoded
def shownSet : CSet := ((((CSet.new 1).addCharToken 'a').addCharToken 'β').addString ['a', 'β'])

example : ∃ x, shownSet.display (fun _ => true) ['β'] = .ok x := by
  refine C121_shown _ _ ⟨?_, ?_⟩ _ ⟨by simp, ?_⟩
  · intro c _ i hi
    simp only [shownSet, CSet.addString, CSet.addCharToken, CSet.addEncoding, CSet.new] at hi ⊢
    split at hi <;> simp_all
  · intro c enc he i hi
    simp only [shownSet, CSet.addString, CSet.addCharToken, CSet.addEncoding, CSet.new] at he ⊢
    simp at he
    obtain ⟨_, rfl⟩ := he
    simp_all
  · intro c
    simp [shownSet, CSet.addString, CSet.addCharToken, CSet.addEncoding, CSet.new]

end Tokens.Props
