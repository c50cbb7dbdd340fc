import Verif.Proofs.Huff4

/-! The order of codes. -/

set_option linter.unusedSimpArgs false
set_option linter.unusedVariables false

namespace Tokens
open Spec TokenSet OptimizeBytes

theorem listed_prefix {l : List Token} (hnd : l.Nodup) {a b : List Nat} (ha : ∀ i ∈ a, i < l.length)
    (hb : ∀ i ∈ b, i < l.length) (h : a.map (l[·]?) <+: b.map (l[·]?)) : a <+: b := by
  rw [List.prefix_iff_eq_take] at h ⊢
  rw [List.length_map, ← List.map_take] at h
  exact listed_inj hnd _ _ ha (fun i hi => hb i (List.mem_of_mem_take hi)) h

theorem HuffInv.code_order {u : UInt8 → Nat} {nExt : Nat} {p : Processing} {counts : Counts} {ts : TokenSet}
    {tops : List UInt8} (h : HuffInv u nExt p counts ts tops) (hf : HuffFamily ts)
    {x y : UInt8} {cx cy : List (Option Token)} (hx : HasCode ts x cx) (hy : HasCode ts y cy)
    (hp : cx <+: cy) : u y ≤ u x := by
  cases hx with
  | tok hx =>
    cases hy with
    | tok hy =>
      have : y = x := by
        obtain ⟨r, hr⟩ := hp
        simp at hr
        exact hr.1.symm
      rw [this]
      exact Nat.le_refl _
    | seq hy =>
      obtain ⟨q, hq, e⟩ := List.mem_map.1 hy
      simp only [Prod.mk.injEq] at e
      obtain ⟨t, ds, h1, _⟩ := h.codes q hq
      refine h.lead q hq y e.1 t (by rw [h1]; rfl) x ?_
      rw [← e.2, listed, h1] at hp
      obtain ⟨r, hr⟩ := hp
      simp at hr
      exact hr.1.symm
  | seq hx =>
    obtain ⟨q, hq, e⟩ := List.mem_map.1 hx
    simp only [Prod.mk.injEq] at e
    cases hy with
    | tok hy =>
      obtain ⟨t, ds, h1, h2, _⟩ := h.codes q hq
      have := hp.length_le
      rw [← e.2, listed, h1] at this
      have h3 : ds.length ≠ 0 := by simpa using h2
      simp only [List.map_cons, List.length_cons, List.length_map, List.length_nil] at this
      omega
    | seq hy =>
      obtain ⟨q', hq', e'⟩ := List.mem_map.1 hy
      simp only [Prod.mk.injEq] at e'
      refine h.order q hq q' hq' x y e.1 e'.1 ?_
      rw [← e.2, ← e'.2] at hp
      exact listed_prefix hf.distinct (hf.inRange q hq) (hf.inRange q' hq') hp

theorem huff_code_order {st : TokenStats} (h : Tokenizable st.tokenSet) (hc : CountsFit st)
    (hs : ∀ q ∈ st.tokenSet.sequences, q.string.length = 1) {n : Nat} (hn : 3 ≤ n) {ts' : TokenSet}
    (hok : huff st n = .ok ts') {x y : UInt8} {cx cy : List (Option Token)} (hx : HasCode ts' x cx)
    (hy : HasCode ts' y cy) (hp : cx <+: cy) : byteUses st y ≤ byteUses st x := by
  obtain ⟨z, k, hz, k1, k2, k3, _, he⟩ := huff_best h hc hs hn
  obtain ⟨tops, hi, hl⟩ := hz.inv
  obtain ⟨l1, l2⟩ := huffInv_lists hi
  obtain ⟨ts'', a1, a2, a3, a4, a5⟩ := addTokens_usable (longTokens st.tokenSet) z.1 hz.family.toUsable
    (longTokens_nodup h) (by
      intro s hs
      obtain ⟨s1, s2⟩ := mem_longTokens.1 hs
      refine ⟨by rintro rfl; simp at s2, ?_⟩
      intro hm
      have : s ∈ longTokens z.1 := mem_longTokens.2 ⟨hm, s2⟩
      rw [l2] at this
      simp at this)
  have e : ts' = ts'' := Except.ok.inj (hok.symm.trans (he.trans a1))
  have back : ∀ {b c}, HasCode ts' b c → HasCode z.1 b c := by
    intro b c hb
    cases hb with
    | tok hb =>
      refine .tok ?_
      rw [e, a5] at hb
      rcases List.mem_append.1 hb with hb | hb
      · exact hb
      · obtain ⟨s, hs, e'⟩ := List.mem_map.1 hb
        have := (mem_longTokens.1 hs).2
        simp at e'
        subst e'
        simp at this
    | seq hb => exact .seq (a3.mem (e ▸ hb))
  have := hi.code_order hz.family (back hx) (back hy) hp
  omega

end Tokens
