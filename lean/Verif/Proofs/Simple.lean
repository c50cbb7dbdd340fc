import Verif.Proofs.Bytes

/-! `SimpleBytesOptimizer::optimize_bytes`. -/

set_option linter.unusedSimpArgs false
set_option linter.unusedVariables false

namespace Tokens
open Spec TokenSet OptimizeBytes

theorem Shrinks.refl (a : TokenSet) : Shrinks a a := ⟨rfl, rfl, _, List.Sublist.refl _, .refl _⟩

theorem Shrinks.trans {c b a : TokenSet} (h1 : Shrinks c b) (h2 : Shrinks b a) : Shrinks c a := by
  obtain ⟨l1, s1, p1⟩ := h1.part
  obtain ⟨l2, s2, p2⟩ := h2.part
  obtain ⟨l3, p3, s3⟩ := List.exists_perm_sublist s1 p2
  exact ⟨h1.nExt.trans h2.nExt, h1.tokenType.trans h2.tokenType, l3, s3.trans s2, p1.trans p3.symm⟩

theorem sameHeader_refl (a : TokenSet) : SameHeader a a := ⟨rfl, rfl, rfl, rfl⟩

theorem Spec.SameHeader.trans' {c b a : TokenSet} (h1 : SameHeader c b) (h2 : SameHeader b a) :
    SameHeader c a := ⟨h1.1.trans h2.1, h1.2.trans h2.2, h1.3.trans h2.3, h1.4.trans h2.4⟩

/-- Adding new, distinct, non-empty strings. -/
theorem addTokens_usable (l : List Bytes) : ∀ (ts : TokenSet), Usable ts → l.Nodup →
    (∀ s ∈ l, s ≠ [] ∧ Token.str s ∉ ts.tokens) →
    ∃ ts', ts.addTokens l = .ok ts' ∧ Usable ts' ∧ Shrinks ts' ts ∧ SameHeader ts' ts ∧
      ts'.tokens = ts.tokens ++ l.map Token.str := by
  induction l with
  | nil => intro ts hu _ _; exact ⟨ts, rfl, hu, .refl ts, sameHeader_refl ts, by simp⟩
  | cons s l ih =>
    intro ts hu hnd h
    obtain ⟨hs, hnew⟩ := h s (by simp)
    rw [List.nodup_cons] at hnd
    have he := addToken_eq ts s hs
    have hu' := usable_add hu hnew he
    obtain ⟨ts', h1, h2, h3, h4, h5⟩ := ih _ hu' hnd.2 (by
      intro x hx
      refine ⟨(h x (by simp [hx])).1, ?_⟩
      simp only [List.mem_append, List.mem_singleton, Token.str.injEq, not_or]
      refine ⟨(h x (by simp [hx])).2, ?_⟩
      rintro rfl
      exact hnd.1 hx)
    refine ⟨ts', ?_, h2, h3.trans (shrinks_add hu.inRange he), h4.trans' ⟨rfl, rfl, rfl, rfl⟩, ?_⟩
    · rw [addTokens, he]; exact h1
    · rw [h5]; simp

theorem longStrings_eq (ts : TokenSet) : longStrings ts.tokens = longTokens ts := by
  unfold longStrings longTokens strTokens
  induction ts.tokens with
  | nil => rfl
  | cons t l ih =>
    cases t with
    | ext n => rw [List.filterMap_cons, List.filterMap_cons]; exact ih
    | str s =>
      by_cases hs : 1 < s.length
      · simp [tokenText, hs] at ih ⊢; exact ih
      · simp [tokenText, hs] at ih ⊢; exact ih

theorem strTokens_nodup {ts : TokenSet} (h : Tokenizable ts) : (strTokens ts).Nodup :=
  (List.nodup_append.1 h.nodup).1

theorem longTokens_nodup {ts : TokenSet} (h : Tokenizable ts) : (longTokens ts).Nodup :=
  (strTokens_nodup h).filter _

theorem mem_longTokens {ts : TokenSet} {s : Bytes} :
    s ∈ longTokens ts ↔ Token.str s ∈ ts.tokens ∧ 1 < s.length := by
  unfold longTokens
  rw [List.mem_filter, mem_strTokens]
  simp

/-- The fresh bits set. -/
theorem freshBits_family {ts : TokenSet} (h : BitsFamily ts) :
    ∃ f, freshBits ts = .ok f ∧ BitsFamily f ∧ SameHeader f ts ∧ f.tokens = extTokens ts.nExt := by
  obtain ⟨len, hp, _⟩ := h.params
  unfold freshBits
  cases hty : ts.tokenType <;> rw [hty] at hp <;> simp [bitsParams] at hp
  · refine ⟨_, newBits1_eq _ _, bitsSet_family (len := 8) (by decide) _ _ _ rfl (by decide +kernel),
      ⟨hp.1, hty.symm, rfl, rfl⟩, by rw [← hp.1]; rfl⟩
  · refine ⟨_, newBits2_eq _ _, bitsSet_family (len := 4) (by decide) _ _ _ rfl (by decide +kernel),
      ⟨hp.1, hty.symm, rfl, rfl⟩, by rw [← hp.1]; rfl⟩
  · refine ⟨_, newBits4_eq _ _, bitsSet_family (len := 2) (by decide) _ _ _ rfl (by decide +kernel),
      ⟨hp.1, hty.symm, rfl, rfl⟩, by rw [← hp.1]; rfl⟩

theorem byteTokens_append (ts : TokenSet) (a b : List Token) (h : ts.tokens = a ++ b) :
    byteTokens ts = byteTokens { ts with tokens := a } ++ byteTokens { ts with tokens := b } := by
  unfold byteTokens
  rw [h, List.filterMap_append]

theorem strTokens_ext (n : Nat) : (extTokens n).filterMap tokenText = [] := extTokens_text n

theorem strTokens_map (l : List Bytes) : (l.map Token.str).filterMap tokenText = l := by
  induction l with
  | nil => rfl
  | cons s l ih => simp [tokenText, ih]

theorem filterSingle_long (l : List Bytes) (h : ∀ s ∈ l, 1 < s.length) :
    l.filterMap single = [] := by
  rw [List.filterMap_eq_nil_iff]
  intro s hs
  have := h s hs
  rcases s with _ | ⟨a, _ | ⟨b, t⟩⟩ <;> simp [single] at this ⊢

theorem filterSingle_map (l : List UInt8) :
    (l.map (fun b => [b])).filterMap single = l := by
  induction l with
  | nil => rfl
  | cons s l ih => rw [List.map_cons, List.filterMap_cons]; simp only [single]; rw [ih]

/-- The closed form of the result. -/
theorem simple_ok {st : TokenStats} (h : BitsFamily st.tokenSet) (hc : CountsFit st) {k : Nat}
    (hk : k ≤ 256) :
    ∃ ts' l, simple st (st.tokenSet.nExt + k) = .ok ts' ∧ BitsFamily ts' ∧
      SameHeader ts' st.tokenSet ∧ l = (byCount (byteUses st)).take k ∧
      ts'.tokens = extTokens st.tokenSet.nExt ++ l.map (fun b => Token.str [b]) ++
        (longTokens st.tokenSet).map Token.str := by
  obtain ⟨a, ha, a', ha', hau⟩ := counts_eq h.accepted hc
  have hau : a' = byteUses st := funext hau
  subst hau
  obtain ⟨f, hf, hff, hfh, hft⟩ := freshBits_family h
  have hl : (byCount (byteUses st)).length = 256 := by
    rw [(byCount_perm _).length_eq, allBytes_length]
  have hnd : (byCount (byteUses st)).Nodup := (byCount_perm _).nodup_iff.2 allBytes_nodup
  have hnd' : ((byCount (byteUses st)).take k).Nodup := (List.take_sublist _ _).nodup hnd
  obtain ⟨ts1, h1, u1, s1, hh1, t1⟩ := addTokens_usable
    (((byCount (byteUses st)).take k).map (fun b => [b])) f hff.toUsable (by
      rw [List.Nodup, List.pairwise_map]
      exact hnd'.imp (fun hne he => hne (by simpa using he))) (by
      intro s hs
      obtain ⟨b, _, rfl⟩ := List.mem_map.1 hs
      refine ⟨by simp, ?_⟩
      rw [hft]
      unfold extTokens
      simp)
  obtain ⟨ts2, h2, u2, s2, hh2, t2⟩ := addTokens_usable (longTokens st.tokenSet) ts1 u1
    (longTokens_nodup h.accepted) (by
      intro s hs
      obtain ⟨hs1, hs2⟩ := mem_longTokens.1 hs
      refine ⟨by rintro rfl; simp at hs2, ?_⟩
      rw [t1, hft]
      intro hm
      rcases List.mem_append.1 hm with hm | hm
      · unfold extTokens at hm; simp at hm
      · rw [List.map_map] at hm
        obtain ⟨b, _, hb⟩ := List.mem_map.1 hm
        simp at hb
        subst hb
        simp at hs2)
  refine ⟨ts2, _, ?_, bits_of hff u2 (s2.trans s1), (hh2.trans' hh1).trans' hfh, rfl, ?_⟩
  · unfold simple
    have hn : subR (st.tokenSet.nExt + k) st.tokenSet.nExt = .ok k := by
      unfold subR
      rw [if_pos (by omega)]
      congr 1
      omega
    rw [hn]
    simp only [R.ok_bind]
    rw [ha]
    simp only [R.ok_bind]
    rw [ha']
    simp only [R.ok_bind]
    rw [prefixR, if_pos (by omega)]
    simp only [R.ok_bind]
    rw [hf]
    simp only [R.ok_bind]
    rw [h1]
    simp only [R.ok_bind]
    rw [longStrings_eq]
    exact h2
  · rw [t2, t1, hft, List.map_map]
    rfl

theorem simple_strTokens {ts' : TokenSet} {n : Nat} {l : List UInt8} {m : List Bytes}
    (ht : ts'.tokens = extTokens n ++ l.map (fun b => Token.str [b]) ++ m.map Token.str) :
    strTokens ts' = l.map (fun b => [b]) ++ m := by
  unfold strTokens
  rw [ht, List.filterMap_append, List.filterMap_append, extTokens_text, strTokens_map]
  rw [show l.map (fun b => Token.str [b]) = (l.map (fun b => [b])).map Token.str by
    rw [List.map_map]; rfl, strTokens_map]
  simp

theorem simple_byteTokens {ts' : TokenSet} {n : Nat} {l : List UInt8} {m : List Bytes}
    (hm : ∀ s ∈ m, 1 < s.length)
    (ht : ts'.tokens = extTokens n ++ l.map (fun b => Token.str [b]) ++ m.map Token.str) :
    byteTokens ts' = l ∧ longTokens ts' = m := by
  constructor
  · rw [byteTokens_eq, simple_strTokens ht, List.filterMap_append, filterSingle_long m hm,
      filterSingle_map]
    simp
  · unfold longTokens
    rw [simple_strTokens ht, List.filter_append, List.filter_eq_nil_iff.2, List.filter_eq_self.2]
    · simp
    · intro s hs; simpa using hm s hs
    · intro s hs
      obtain ⟨b, _, rfl⟩ := List.mem_map.1 hs
      simp

/-- Everything C29 says. -/
theorem simple_spec {st : TokenStats} (h : BitsFamily st.tokenSet) (hc : CountsFit st) {k : Nat}
    (hk : k ≤ 256) :
    ∃ ts', simple st (st.tokenSet.nExt + k) = .ok ts' ∧ BitsFamily ts' ∧
      SameHeader ts' st.tokenSet ∧ (byteTokens ts').length = k ∧
      longTokens ts' = longTokens st.tokenSet ∧
      ts'.tokens.length = st.tokenSet.nExt + k + (longTokens st.tokenSet).length ∧
      byteTokens ts' = (byCount (byteUses st)).take k := by
  obtain ⟨ts', l, h1, h2, h3, h4, h5⟩ := simple_ok h hc hk
  have hl : (byCount (byteUses st)).length = 256 := by
    rw [(byCount_perm _).length_eq, allBytes_length]
  have hll : l.length = k := by rw [h4, List.length_take]; omega
  obtain ⟨h6, h7⟩ := simple_byteTokens (fun s hs => (mem_longTokens.1 hs).2) h5
  refine ⟨ts', h1, h2, h3, by rw [h6, hll], h7, ?_, by rw [h6, h4]⟩
  rw [h5]
  simp [extTokens, hll]
  omega

theorem simple_small {st : TokenStats} {n : Nat} (h : n < st.tokenSet.nExt) :
    simple st n = .error .underflow := by
  unfold simple subR
  rw [if_neg (by omega)]
  rfl

theorem simple_big {st : TokenStats} (h : BitsFamily st.tokenSet) (hc : CountsFit st) {k : Nat}
    (hk : 256 < k) : simple st (st.tokenSet.nExt + k) = .error .index := by
  obtain ⟨a, ha, a', ha', hau⟩ := counts_eq h.accepted hc
  unfold simple
  have hn : subR (st.tokenSet.nExt + k) st.tokenSet.nExt = .ok k := by
    unfold subR
    rw [if_pos (by omega)]
    congr 1
    omega
  rw [hn]
  simp only [R.ok_bind]
  rw [ha]
  simp only [R.ok_bind]
  rw [ha']
  simp only [R.ok_bind]
  rw [prefixR, if_neg]
  · rfl
  · rw [(byCount_perm _).length_eq, allBytes_length]; omega

/-- The selected bytes are the best choice. -/
theorem simple_best {st : TokenStats} (h : BitsFamily st.tokenSet) (hc : CountsFit st) {k : Nat}
    (hk : k ≤ 256) {ts' other : TokenSet} (hok : simple st (st.tokenSet.nExt + k) = .ok ts')
    (ho : BitsFamily other) (hty : other.tokenType = st.tokenSet.tokenType)
    (hlen : (byteTokens other).length ≤ k) : bytesTotal ts' st ≤ bytesTotal other st := by
  obtain ⟨ts'', h1, h2, h3, h4, h5, _, h6⟩ := simple_spec h hc hk
  have he : ts' = ts'' := Except.ok.inj (hok.symm.trans h1)
  clear h1 hok
  subst he
  obtain ⟨len, hp, _⟩ := h2.params
  obtain ⟨len', hp', _⟩ := ho.params
  have e : len' = len := by
    rw [hty, ← h3.tokenType, hp] at hp'
    simp at hp'
    omega
  subst e
  have t1 := bits_total h2 hp st
  have t2 := bits_total ho hp' st
  have t3 := top_sum (u := byteUses st) (byCount (byteUses st)) (byCount_pairwise _) (byteTokens other) k
    (pieceBytes ho.accepted).1 (fun x _ => (byCount_perm _).mem_iff.2 (mem_allBytes x)) hlen
  rw [← h6] at t3
  have := Nat.mul_le_mul_left (len' - 1) t3
  omega

end Tokens
