import Verif.Proofs.Start

/-! Sorted sets of the families are regular: they can be saved and loaded. -/

set_option linter.unusedSimpArgs false
set_option linter.unusedVariables false

namespace Tokens
open Spec TokenSet Optimize Batch

theorem extTokens_eq (n : Nat) :
    extTokens n = (List.range n).map (fun i => Token.ext (UInt8.ofNat i)) := by
  unfold extTokens; rfl

theorem tokens_split_perm (l : List Token) :
    l.Perm ((extNums l).map Token.ext ++
      (l.filterMap tokenText).map Token.str) := by
  induction l with
  | nil => exact List.Perm.refl _
  | cons t l ih =>
    cases t with
    | ext n => exact ih.cons _
    | str s =>
      refine (ih.cons _).trans ?_
      exact List.perm_middle.symm

theorem tokenBefore_antisymm (a b : Token) (h1 : TokenBefore a b) (h2 : TokenBefore b a) : a = b := by
  cases a <;> cases b <;> simp only [TokenBefore] at h1 h2
  · exact congrArg _ (List.le_antisymm h1 h2)
  · exact congrArg _ (UInt8.le_antisymm h1 h2)

theorem regular_of_sorted {ts : TokenSet} (h : Family ts) (hs : Sorted ts) : Regular ts := by
  have hu := Tokens.Family.usable h
  have hids : strTokens ts = ts.tokens.filterMap tokenText := rfl
  refine ⟨?_, hu.few, ?_, ?_, ?_, hu.inRange, family_seqLen h⟩
  · rw [← extTokens_eq]
    refine List.Perm.eq_of_pairwise (le := TokenBefore) (fun a b _ _ => tokenBefore_antisymm a b) hs.1 ?_ ?_
    · rw [List.pairwise_append]
      refine ⟨?_, ?_, ?_⟩
      · rw [extTokens_eq, List.pairwise_map, List.pairwise_iff_getElem]
        intro i j hi hj hij
        rw [List.getElem_range, List.getElem_range]
        have hf := hu.few
        rw [List.length_range] at hi hj
        show UInt8.ofNat i ≤ UInt8.ofNat j
        rw [UInt8.le_iff_toNat_le]
        simp only [UInt8.toNat_ofNat']
        omega
      · rw [hids, List.pairwise_map, List.pairwise_filterMap]
        refine hs.1.imp ?_
        intro a b hab x hx y hy
        cases a <;> cases b <;> simp [tokenText] at hx hy
        subst hx; subst hy; exact hab
      · intro a ha b hb
        rw [extTokens_eq] at ha
        obtain ⟨_, _, rfl⟩ := List.mem_map.1 ha
        obtain ⟨_, _, rfl⟩ := List.mem_map.1 hb
        trivial
    · refine (tokens_split_perm _).trans (List.Perm.append ?_ (by rw [hids]))
      have h1 : (extNums ts.tokens).Perm (extNums (extTokens ts.nExt)) := by
        rw [List.perm_ext_iff_of_nodup (extNums_nodup hu.distinct) (extNums_nodup (nodup_extTokens hu.few))]
        intro n
        rw [mem_extNums, mem_extNums, hu.exts, exts_extTokens hu.few]
      refine (h1.map _).trans ?_
      have : (extNums (extTokens ts.nExt)).map Token.ext = extTokens ts.nExt := by
        rw [extTokens_eq]
        generalize List.range ts.nExt = l
        induction l with
        | nil => rfl
        | cons a l ih =>
          simp only [List.map_cons]
          exact congrArg _ ih
      rw [this]
  · intro n hn
    rcases h with h | h | h
    · obtain ⟨len, hp, _⟩ := h.params
      cases hty : ts.tokenType <;> rw [hty] at hp hn <;> simp [bitsParams, requiredExts] at hp hn <;> omega
    · rw [h.type] at hn; simp [requiredExts] at hn; rw [h.noExt]; exact hn
    · rw [h.type] at hn; simp [requiredExts] at hn
  · exact (List.nodup_append.1 hu.accepted.nodup).1
  · intro s hs
    exact hu.accepted.nonempty s (List.mem_append.2 (.inl hs))

end Tokens
