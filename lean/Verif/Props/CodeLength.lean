import Verif.Proofs.HuffDepth
import Verif.Props.HuffBest
import Mathlib.Analysis.SpecialFunctions.Log.Base

/-!
# Property C88: how long the codes of the byteshuff byte optimizer can be
-/

namespace Tokens
open Spec TokenSet OptimizeBytes

theorem tokensetLoop_short {u : UInt8 → Nat} {nExt : Nat} (hx : 2 ≤ nExt) {r : Nat} (nodes : List HuffmanNode) :
    ∀ (pre : Counts) (ts out : TokenSet), Ordered (pre ++ nodes.flatMap leaves) →
    Agrees u (pre ++ nodes.flatMap leaves) →
    (∀ n ∈ nodes, Tight n ∧ n.count - (nodeToSplit n).topCount ≤ r) →
    (∀ q ∈ ts.sequences, ∀ b, q.string = [b] → 2 ≤ q.tokens.length ∧ ShortFor (u b) (q.tokens.length - 2) r) →
    tokensetLoop (pre ++ nodes.flatMap leaves) nExt (nodes.map nodeToSplit) ts = .ok out →
    ∀ q ∈ out.sequences, ∀ b, q.string = [b] → 2 ≤ q.tokens.length ∧ ShortFor (u b) (q.tokens.length - 2) r := by
  induction nodes with
  | nil =>
    intro pre ts out _ _ _ h1 h
    have := Except.ok.inj h
    subst this
    exact h1
  | cons n nodes ih =>
    intro pre ts out ho hag ht hs h
    rw [List.flatMap_cons] at ho hag h
    have hn : Ordered (leaves n) := ho.sublist
      ((List.sublist_append_left _ _).trans (List.sublist_append_right _ _))
    have hagn : Agrees u (leaves n) := fun q hq =>
      hag q (List.mem_append_right _ (List.mem_append_left _ hq))
    rw [List.map_cons, tokensetLoop, addToken_eq ts _ (by simp)] at h
    simp only [R.ok_bind] at h
    rw [groupBounds_spec ho] at h
    simp only [R.ok_bind] at h
    have next := fun ts' hs => ih (pre ++ leaves n) ts' out
      (by rw [List.append_assoc]; exact ho) (by rw [List.append_assoc]; exact hag)
      (fun m hm => ht m (List.mem_cons_of_mem _ hm)) hs
    rw [← List.append_assoc] at h
    have hs' : ∀ q ∈ ts.sequences.filter (fun q => q.string != [(nodeToSplit n).top]), ∀ b, q.string = [b] →
        2 ≤ q.tokens.length ∧ ShortFor (u b) (q.tokens.length - 2) r :=
      fun q hq => hs q (List.mem_filter.1 hq).1
    by_cases hl : pre.length + (leaves n).length = pre.length + 1
    · rw [if_pos hl] at h
      exact next _ hs' h
    · rw [if_neg hl] at h
      obtain ⟨a, b, e, hsub⟩ := subCounts_spec ho
      rw [List.append_assoc, hsub] at h
      simp only [R.ok_bind] at h
      cases hr : extEncoding nExt ((a ++ b).length + 1) (a ++ b) with
      | error er => rw [hr] at h; cases h
      | ok sub =>
        rw [hr] at h
        simp only [R.ok_bind] at h
        have hab : Ordered (a ++ b) := hn.sublist (by
          rw [e]; exact .append (List.Sublist.refl _) (List.sublist_cons_self _ _))
        obtain ⟨hsc, hsn⟩ := extEncoding_short hx _ _ _ hab (agrees_ab hagn e) hr
        rw [← List.append_assoc pre, addSeqs_eq] at h
        refine next _ ?_ h
        intro q hq c hc
        rcases List.mem_append.1 hq with hq | hq
        · exact hs' q hq c hc
        · obtain ⟨y, hy, rfl⟩ := List.mem_map.1 hq
          have h1 := List.length_pos_iff.2 (hsn y hy)
          have h2 := (hsc y hy).mono (w' := r) (by
            rw [weight_sub (ht n (by simp)).1 e]; exact (ht n (by simp)).2)
          have h3 : y.1 = c := List.head_eq_of_cons_eq hc
          rw [h3] at h2
          refine ⟨by simp only [List.length_cons]; omega, ?_⟩
          have h4 : (ts.tokens.length :: y.2).length - 2 = y.2.length - 1 := by
            simp only [List.length_cons]; omega
          rw [h4]
          exact h2

theorem bytesTokenset_short {u : UInt8 → Nat} {counts : Counts} (h : FullCounts counts)
    (hag : Agrees u counts) {nChar nExt : Nat} (hc : 1 ≤ nChar) (hx : 2 ≤ nExt) (p : Processing) {ts : TokenSet}
    (hok : bytesTokenset counts nChar nExt p = .ok ts) :
    ∀ q ∈ ts.sequences, ∀ b, q.string = [b] → 2 ≤ q.tokens.length ∧
      ShortFor (u b) (q.tokens.length - 2) (weight counts) ∧
      (2 ≤ nChar → ShortFor (u b) (q.tokens.length - 1) (weight counts)) := by
  obtain ⟨nodes, h1, h2, h3, h4, h5⟩ := optimizeSplits_tight counts hc
  unfold bytesTokenset TokenSet.new at hok
  cases hx' : decide (nExt < 256) with
  | false => rw [hx'] at hok; cases hok
  | true =>
    rw [rassert_true hx'] at hok
    simp only [R.ok_bind] at hok
    rw [h1] at hok
    simp only [R.ok_bind] at hok
    have key : ∀ r, (∀ n ∈ nodes, n.count - (nodeToSplit n).topCount ≤ r) →
        ∀ q ∈ ts.sequences, ∀ b, q.string = [b] → 2 ≤ q.tokens.length ∧ ShortFor (u b) (q.tokens.length - 2) r := by
      intro r hr
      have := tokensetLoop_short (u := u) hx (r := r) nodes []
      rw [List.nil_append, h3] at this
      exact this _ ts h.ordered hag (fun n hn => ⟨h4 n hn, hr n hn⟩) (by intro q hq; cases hq) hok
    intro q hq b hb
    have hone := key (weight counts) (fun n hn => by
      rw [← h3, weight_flatMap h4]
      obtain ⟨l, r, e⟩ := List.append_of_mem hn
      rw [e]
      simp only [List.map_append, List.map_cons, List.sum_append, List.sum_cons]
      omega) q hq b hb
    refine ⟨hone.1, hone.2, ?_⟩
    intro hc2
    have htwo := key (3 * weight counts / 4) (fun n hn => by
      have := quarter h4 h5 (by rw [h2, h.length]; omega) hn
      rw [h3] at this
      omega) q hq b hb
    have := htwo.2.step (w' := weight counts) (by omega)
    have e : q.tokens.length - 2 + 1 = q.tokens.length - 1 := by omega
    rw [e] at this
    exact this

namespace Props

theorem weight_tab (u : UInt8 → Nat) : weight (tab u) = (allBytes.map u).sum := by
  unfold weight tab
  rw [List.map_map]
  rfl

theorem smoothedUses_eq (st : TokenStats) : smoothedUses st = (allBytes.map (fun b => byteUses st b + 1)).sum := by
  unfold smoothedUses sumTo allBytes
  rw [List.map_map]
  rfl

theorem code_lengths (st : TokenStats) (n : Nat) (h : Tokenizable st.tokenSet) (hc : CountsFit st)
    (hs : ∀ q ∈ st.tokenSet.sequences, q.string.length = 1) (hn : 3 ≤ n)
    (ts' : TokenSet) (hok : huff st n = .ok ts') (b : UInt8) :
    ShortFor (byteUses st b + 1) (byteCost ts' b - 2) (smoothedUses st) ∧
      (12 ≤ n → ShortFor (byteUses st b + 1) (byteCost ts' b - 1) (smoothedUses st)) := by
  obtain ⟨y, k, hy, k1, k2, _, _, he⟩ := huff_best h hc hs hn
  have hadd : y.1.addTokens (longTokens st.tokenSet) = .ok ts' := he.symm.trans hok
  have hlong : ∀ s ∈ longTokens st.tokenSet, 1 < s.length := fun s hs => (mem_longTokens.1 hs).2
  rw [byteCost_long hlong hadd]
  have hsh := bytesTokenset_short (tab_full (f := fun b => byteUses st b + 1) (fun b => by omega))
    (tab_agrees (fun b => byteUses st b + 1)) (show 1 ≤ n - k by omega) k1 st.tokenSet.processing hy.made
  rw [weight_tab] at hsh
  have hone : ∀ c, 0 = c → ShortFor (byteUses st b + 1) c (smoothedUses st) := by
    rintro c rfl
    have := weight_mem (l := tab (fun b => byteUses st b + 1)) (p := (b, byteUses st b + 1))
      (List.mem_map.2 ⟨b, mem_allBytes b, rfl⟩)
    rw [weight_tab] at this
    unfold ShortFor
    rw [smoothedUses_eq]
    simpa using this
  by_cases hb : Token.str [b] ∈ y.1.tokens
  · rw [byteCost_tok hb]
    exact ⟨hone _ rfl, fun _ => hone _ rfl⟩
  · rcases C31_each_byte_once y.1 hy.family b with ⟨h1, _⟩ | ⟨_, l, hl, _⟩
    · exact absurd h1 hb
    · obtain ⟨q, hq, e⟩ := List.mem_map.1 hl
      simp only [Prod.mk.injEq] at e
      rw [byteCost_seq hy.family.accepted hq e.1, smoothedUses_eq]
      obtain ⟨_, h2, h3⟩ := hsh q hq b e.1
      exact ⟨h2, fun hn => h3 (by omega)⟩

/-- **C88**.  The more often a byte was seen, the shorter its code: a byte that needs `k + 2` output tokens
has at most the share `(3/4)^k` of all bytes (each byte counted once more than it was seen). -/
theorem C88_share (st : TokenStats) (n : Nat) (h : Tokenizable st.tokenSet) (hc : CountsFit st)
    (hs : ∀ q ∈ st.tokenSet.sequences, q.string.length = 1) (hn : 3 ≤ n)
    (ts' : TokenSet) (hok : huff st n = .ok ts') (b : UInt8) (k : Nat) (hk : byteCost ts' b = k + 2) :
    (byteUses st b + 1) * 4 ^ k ≤ 3 ^ k * smoothedUses st := by
  have := (code_lengths st n h hc hs hn ts' hok b).1
  rw [hk, Nat.add_sub_cancel] at this
  exact this

/-- **C88**.  With 12 tokens or more for bytes, one token less is needed: a byte that needs `k + 1` output
tokens has at most the share `(3/4)^k`. -/
theorem C88_share_12 (st : TokenStats) (n : Nat) (h : Tokenizable st.tokenSet) (hc : CountsFit st)
    (hs : ∀ q ∈ st.tokenSet.sequences, q.string.length = 1) (hn : 12 ≤ n)
    (ts' : TokenSet) (hok : huff st n = .ok ts') (b : UInt8) (k : Nat) (hk : byteCost ts' b = k + 1) :
    (byteUses st b + 1) * 4 ^ k ≤ 3 ^ k * smoothedUses st := by
  have := (code_lengths st n h hc hs (by omega) ts' hok b).2 hn
  rw [hk, Nat.add_sub_cancel] at this
  exact this

theorem pow_limit {m k : Nat} (h : 4 ^ k ≤ 3 ^ k * m) (hm : m < 2 ^ 64) : k < 155 := by
  by_contra hk
  have hk : 155 ≤ k := by omega
  have h1 : 3 ^ 155 * 2 ^ 64 ≤ 4 ^ 155 := by norm_num
  have h2 : 3 ^ k * 2 ^ 64 ≤ 4 ^ k := by
    obtain ⟨d, rfl⟩ : ∃ d, k = 155 + d := ⟨k - 155, by omega⟩
    rw [Nat.pow_add, Nat.pow_add]
    calc 3 ^ 155 * 3 ^ d * 2 ^ 64 = 3 ^ 155 * 2 ^ 64 * 3 ^ d := by ring
      _ ≤ 4 ^ 155 * 4 ^ d := Nat.mul_le_mul h1 (Nat.pow_le_pow_left (by omega) d)
  have h3 : 3 ^ k * m < 3 ^ k * 2 ^ 64 := Nat.mul_lt_mul_of_pos_left hm (Nat.pow_pos (by omega))
  omega

/-- **C88**.  Whatever the data (as long as its bytes can be counted in 64 bits), no byte needs more than 156
output tokens. -/
theorem C88_limit (st : TokenStats) (n : Nat) (h : Tokenizable st.tokenSet) (hc : CountsFit st)
    (hs : ∀ q ∈ st.tokenSet.sequences, q.string.length = 1) (hn : 3 ≤ n) (hu : smoothedUses st < 2 ^ 64)
    (ts' : TokenSet) (hok : huff st n = .ok ts') (b : UInt8) : byteCost ts' b ≤ 156 := by
  have h1 := (code_lengths st n h hc hs hn ts' hok b).1
  unfold ShortFor at h1
  have := pow_limit (m := smoothedUses st) (k := byteCost ts' b - 2)
    (Nat.le_trans (Nat.le_mul_of_pos_left _ (by omega)) h1) hu
  omega

/-- **C88**.  The same with logarithms: a byte needs at most `2 + log (1 / its share)` output tokens, the
logarithm to the base 4/3. -/
theorem C88_log (st : TokenStats) (n : Nat) (h : Tokenizable st.tokenSet) (hc : CountsFit st)
    (hs : ∀ q ∈ st.tokenSet.sequences, q.string.length = 1) (hn : 3 ≤ n)
    (ts' : TokenSet) (hok : huff st n = .ok ts') (b : UInt8) :
    (byteCost ts' b : ℝ) ≤ 2 + Real.logb (4 / 3) (smoothedUses st / (byteUses st b + 1 : Nat)) := by
  have h1 := (code_lengths st n h hc hs hn ts' hok b).1
  unfold ShortFor at h1
  have hu : (0 : ℝ) < ((byteUses st b + 1 : Nat) : ℝ) := by exact_mod_cast Nat.succ_pos _
  have h2 : (((4 : ℝ) / 3) ^ (byteCost ts' b - 2 : Nat)) ≤ smoothedUses st / (byteUses st b + 1 : Nat) := by
    rw [le_div_iff₀ hu, div_pow, div_mul_eq_mul_div, div_le_iff₀ (by positivity)]
    have : ((((byteUses st b + 1) * 4 ^ (byteCost ts' b - 2) : Nat)) : ℝ) ≤
        ((3 ^ (byteCost ts' b - 2) * smoothedUses st : Nat) : ℝ) := by exact_mod_cast h1
    push_cast at this ⊢
    linarith
  have h3 : ((byteCost ts' b - 2 : Nat) : ℝ) ≤ Real.logb (4 / 3) (smoothedUses st / (byteUses st b + 1 : Nat)) := by
    rw [Real.le_logb_iff_rpow_le (by norm_num) (lt_of_lt_of_le (by positivity) h2), Real.rpow_natCast]
    exact h2
  have h4 : (byteCost ts' b : ℝ) ≤ ((byteCost ts' b - 2 : Nat) : ℝ) + 2 := by
    have : byteCost ts' b ≤ (byteCost ts' b - 2) + 2 := by omega
    exact_mod_cast this
  linarith

/-- **C88**.  All bytes together need at most two output tokens each, and `log 2 / log (4/3)` (about 2.41)
times the entropy of the bytes. -/
theorem C88_entropy (st : TokenStats) (n : Nat) (h : Tokenizable st.tokenSet) (hc : CountsFit st)
    (hs : ∀ q ∈ st.tokenSet.sequences, q.string.length = 1) (hn : 3 ≤ n)
    (ts' : TokenSet) (hok : huff st n = .ok ts') :
    (smoothedTotal ts' st : ℝ) ≤ 2 * smoothedUses st + (Real.log 2 / Real.log (4 / 3)) *
      (allBytes.map (fun b => ((byteUses st b + 1 : Nat) : ℝ) *
        Real.logb 2 (smoothedUses st / (byteUses st b + 1 : Nat)))).sum := by
  have hlog : ∀ x : ℝ, Real.logb (4 / 3) x = Real.log 2 / Real.log (4 / 3) * Real.logb 2 x := by
    intro x
    unfold Real.logb
    have h2 : Real.log 2 ≠ 0 := (Real.log_pos (by norm_num)).ne'
    field_simp
  have key : ∀ l : List UInt8, (((l.map (fun b => byteCost ts' b * (byteUses st b + 1))).sum : Nat) : ℝ) ≤
      2 * (((l.map (fun b => byteUses st b + 1)).sum : Nat) : ℝ) + (Real.log 2 / Real.log (4 / 3)) *
      (l.map (fun b => ((byteUses st b + 1 : Nat) : ℝ) *
        Real.logb 2 (smoothedUses st / (byteUses st b + 1 : Nat)))).sum := by
    intro l
    induction l with
    | nil => simp only [List.map_nil, List.sum_nil]; norm_num
    | cons b l ih =>
      simp only [List.map_cons, List.sum_cons]
      have h1 := C88_log st n h hc hs hn ts' hok b
      rw [hlog] at h1
      have h2 := mul_le_mul_of_nonneg_right h1 (Nat.cast_nonneg (α := ℝ) (byteUses st b + 1))
      push_cast at ih h2 ⊢
      nlinarith [ih, h2]
  rw [smoothedTotal_eq]
  conv_rhs => rw [smoothedUses_eq]
  have := key allBytes
  rw [smoothedUses_eq] at this
  exact this

-- the hypotheses are met by the counts of the set `grown`
example : ∃ ts', huff grownStats 40 = .ok ts' ∧ ∀ b k, byteCost ts' b = k + 1 →
    (byteUses grownStats b + 1) * 4 ^ k ≤ 3 ^ k * smoothedUses grownStats := by
  have hs : ∀ q ∈ grownStats.tokenSet.sequences, q.string.length = 1 := by
    intro q hq
    obtain ⟨_, _, hcodes⟩ := grown_bits.params
    obtain ⟨b, ds, e, _⟩ := hcodes (q.string, listed Example.grown q) (List.mem_map.2 ⟨q, hq, rfl⟩)
    simp only [Prod.mk.injEq] at e
    rw [e.1]; rfl
  obtain ⟨ts', h1, _⟩ := C31_huff grownStats 40 grown_bits.accepted grownStats_fit hs (by decide)
  exact ⟨ts', h1, fun b k hk => C88_share_12 grownStats 40 grown_bits.accepted grownStats_fit hs (by decide) ts' h1 b k hk⟩

end Props
end Tokens
