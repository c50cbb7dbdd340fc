import Verif.Proofs.Huff5
import Verif.Proofs.ByteSaving
import Verif.Proofs.Bytes

/-! The cost that the loop over the candidates computes is the number of output tokens. -/

set_option linter.unusedSimpArgs false
set_option linter.unusedVariables false

namespace Tokens
open Spec TokenSet OptimizeBytes

/-- Output tokens for the bytes, each counted `u b` times. -/
theorem cand_cost {u : UInt8 → Nat} {n k : Nat} {p : Processing} {x : TokenSet × Nat} (h : Cand u n p k x) :
    x.2 = (allBytes.map (fun b => byteCost x.1 b * u b)).sum := by
  obtain ⟨tops, hi, hl⟩ := h.inv
  obtain ⟨t0, c1, c2⟩ := h.cost
  obtain ⟨bs, hb1, hb2⟩ := hi.bytes
  have hpre : (tab u).map Prod.fst = allBytes := by
    unfold tab
    rw [List.map_map]
    exact (List.map_congr_left (fun _ _ => rfl)).trans (List.map_id _)
  rw [hpre] at hb2
  rw [hi.tokens, costTokens_exts, costTokens_tops] at c1
  have e0 := Except.ok.inj c1
  subst e0
  rw [costSeqs_eq u _ bs _ hb1] at c2
  have e1 := Except.ok.inj c2
  rw [← e1, ← perm_sum (hb2.map (fun b => byteCost x.1 b * u b)), List.map_append, List.sum_append]
  have ht : tops.map (fun b => byteCost x.1 b * u b) = tops.map u := by
    refine List.map_congr_left (fun b hb => ?_)
    rw [byteCost_tok (by rw [hi.tokens]; exact List.mem_append_right _ (List.mem_map.2 ⟨b, hb, rfl⟩)), Nat.one_mul]
  have hq : ∀ (qs : List Sequence) (bs : List UInt8), (∀ q ∈ qs, q ∈ x.1.sequences) →
      qs.map (·.string) = bs.map (fun b => [b]) →
      (bs.zip qs).map (fun p => u p.1 * p.2.tokens.length) = bs.map (fun b => byteCost x.1 b * u b) := by
    intro qs
    induction qs with
    | nil =>
      intro bs _ e
      cases bs with
      | nil => rfl
      | cons b bs => simp at e
    | cons q qs ih =>
      intro bs hqs e
      cases bs with
      | nil => simp at e
      | cons b bs =>
        simp only [List.map_cons, List.cons.injEq] at e
        rw [List.zip_cons_cons, List.map_cons, List.map_cons, ih bs (fun q' h' => hqs q' (by simp [h'])) e.2,
          byteCost_seq h.family.accepted (hqs q (by simp)) e.1, Nat.mul_comm]
  rw [ht, hq _ _ (fun _ h => h) hb1]
  omega

/-- Long tokens do not change the cost of bytes. -/
theorem byteCost_long {ts ts' : TokenSet} {l : List Bytes} (hl : ∀ s ∈ l, 1 < s.length)
    (h : ts.addTokens l = .ok ts') (b : UInt8) : byteCost ts' b = byteCost ts b := by
  have ht : ∀ (l : List Bytes) (a : TokenSet), (∀ s ∈ l, 1 < s.length) → a.addTokens l = .ok ts' →
      byteCost ts' b = byteCost a b := by
    intro l
    induction l with
    | nil =>
      intro a _ h
      cases h
      rfl
    | cons s l ih =>
      intro a hl h
      have hs := hl s (by simp)
      unfold TokenSet.addTokens at h
      have hne : s ≠ [] := by rintro rfl; simp at hs
      have hsb : s ≠ [b] := by rintro rfl; simp at hs
      rw [addToken_eq _ _ hne] at h
      simp only [R.ok_bind] at h
      rw [ih _ (fun x hx => hl x (by simp [hx])) h]
      unfold byteCost
      simp only
      have e1 : (Token.str [b] ∈ a.tokens ++ [Token.str s]) ↔ Token.str [b] ∈ a.tokens := by
        simp only [List.mem_append, List.mem_singleton, Token.str.injEq]
        constructor
        · rintro (h | h)
          · exact h
          · exact absurd h.symm hsb
        · exact .inl
      simp only [e1]
      congr 2
      rw [List.find?_filter]
      congr 1
      funext q
      by_cases hq : q.string = [b]
      · simp [hq, Ne.symm hsb]
      · simp [hq]
  exact ht l ts hl h

end Tokens
