import Verif.Model.Optimize
import Verif.Spec.Pairs
import Verif.Proofs.Batch
import Verif.Proofs.Accounting
import Verif.Proofs.Simple

/-! The choice of the most frequent pair. -/

set_option linter.unusedSimpArgs false
set_option linter.unusedVariables false

namespace Tokens
open Spec FragmentTokenizer Batch TokenSet Optimize

theorem sync_inv {ts : TokenSet} {samples : List Bytes} {n : Option Nat} {st : TokenStats}
    (hseq : SeqsInRange ts) (h : tokenizeFileSync ts samples n = .ok st) :
    ∃ tk d, new ts = .ok tk ∧ Tokenizable ts ∧ Work ts tk d ∧ Shaped ts st ∧ st.initialSize = n ∧
      ∀ ix, cnt st ix = workSum d samples ix := by
  cases hn : FragmentTokenizer.new ts with
  | error e => unfold tokenizeFileSync at h; rw [hn] at h; simp [bind, Except.bind] at h
  | ok tk =>
    obtain ⟨_, ht⟩ := ok_of_new hn
    obtain ⟨d, hw⟩ := exists_work hn hseq
    obtain ⟨st', h1, h2, h3, h4⟩ := sync_ok hn hw samples n
    have : st = st' := Except.ok.inj (h.symm.trans h1)
    subst this
    exact ⟨tk, d, rfl, ht, hw, h2, h3, h4⟩

/-! ### is_valid_token -/

theorem isValid_spec (s : Bytes) (h : 2 ≤ s.length) :
    ∃ b, isValidToken s = .ok b ∧ (b = true ↔ ¬ HasInnerBreak s) := by
  unfold isValidToken
  rw [subR_of h]
  refine ⟨_, rfl, ?_⟩
  rw [List.all_eq_true]
  constructor
  · rintro hall ⟨u, x, v, rfl, hx⟩
    have := hall u.length (by simp; omega)
    simp [hx] at this
  · intro hn i hi
    simp only [List.mem_range] at hi
    rw [Bool.not_eq_true']
    by_contra hc
    rw [Bool.not_eq_false] at hc
    simp only [Bool.and_eq_true, decide_eq_true_eq] at hc
    obtain ⟨⟨h1, h2⟩, h3⟩ := hc
    have h4 : i + 2 < s.length := by omega
    refine hn ⟨s.take i, s[i+2], s.drop (i+3), ?_, ?_⟩
    · have e1 : s = s.take i ++ s.drop i := (List.take_append_drop i s).symm
      have hi0 : i < s.length := by omega
      have hi1 : i + 1 < s.length := by omega
      rw [List.getElem?_eq_getElem hi0] at h1
      rw [List.getElem?_eq_getElem hi1] at h2
      have e2 : s.drop i = s[i] :: s[i+1] :: s[i+2] :: s.drop (i+3) := by
        rw [List.drop_eq_getElem_cons hi0, List.drop_eq_getElem_cons hi1, List.drop_eq_getElem_cons h4]
      have e3 : s[i] = 10 := by simpa using h1
      have e4 : s[i+1] = 10 := by simpa using h2
      conv => lhs; rw [e1, e2, e3, e4]
      simp
    · intro hx
      rw [List.getElem?_eq_getElem h4, hx] at h3
      exact h3 rfl

/-! ### Pairs that were seen -/

theorem workSum_pos {d : Bytes → Ix → Nat} {l : List Bytes} {ix : Ix} (h : 0 < workSum d l ix) :
    ∃ x ∈ l, 0 < d x ix := by
  induction l with
  | nil => simp at h
  | cons x l ih =>
    rw [workSum_cons] at h
    by_cases hx : 0 < d x ix
    · exact ⟨x, by simp, hx⟩
    · obtain ⟨y, hy, h'⟩ := ih (by omega)
      exact ⟨y, by simp [hy], h'⟩

theorem pairOcc_pos {a b : Nat} (ps : List Piece) (h : 0 < pairOcc a b ps) :
    ∃ u v, ps = u ++ .tok a :: .tok b :: v := by
  fun_induction pairOcc a b ps with
  | case1 x y rest ih =>
    by_cases hxy : x = a ∧ y = b
    · obtain ⟨rfl, rfl⟩ := hxy
      exact ⟨[], rest, rfl⟩
    · rw [if_neg hxy] at h
      obtain ⟨u, v, e⟩ := ih (by omega)
      exact ⟨.tok x :: u, v, by rw [e]; rfl⟩
  | case2 p rest hne ih =>
    obtain ⟨u, v, e⟩ := ih h
    exact ⟨p :: u, v, by rw [e]; rfl⟩
  | case3 => simp at h

theorem spells_mid {ts : TokenSet} {u v : List Piece} {a b : Nat} {t : Bytes}
    (h : Spells ts (u ++ .tok a :: .tok b :: v) t) :
    ∃ t1 s1 s2 t2, Spells ts u t1 ∧ Spells ts v t2 ∧ ts.tokens[a]? = some (.str s1) ∧
      ts.tokens[b]? = some (.str s2) ∧ t = t1 ++ (s1 ++ (s2 ++ t2)) := by
  obtain ⟨t1, t', rfl, h1, h2⟩ := h.append_inv
  cases h2 with
  | cons ha h2 =>
    cases h2 with
    | cons hb h2 =>
      exact ⟨t1, _, _, _, h1, h2, Piece.string_tok.1 ha, Piece.string_tok.1 hb, rfl⟩

theorem pair_cnt {ts : TokenSet} {tk : FragmentTokenizer} {d} (hw : Work ts tk d) {x : Bytes} {k : Nat}
    (h : 0 < d x (.pair k)) : ∃ ps, LongestLast ts ps x ∧ k < ts.tokens.length * ts.tokens.length ∧
      0 < pairOcc (k / ts.tokens.length) (k % ts.tokens.length) ps := by
  obtain ⟨ps, h1, h2⟩ := hw.seg x
  rw [h2] at h
  simp only [segCount] at h
  split at h
  · next hk => exact ⟨ps, h1, hk, h⟩
  · omega

theorem optimal_pair {ts : TokenSet} {a b : Nat} {ps : List Piece} {x : Bytes}
    (ho : Optimal ts x ps) (h : 0 < pairOcc a b ps) :
    ∃ s1 s2, ts.tokens[a]? = some (.str s1) ∧ ts.tokens[b]? = some (.str s2) ∧
      Token.str (s1 ++ s2) ∉ ts.tokens := by
  obtain ⟨u, v, rfl⟩ := pairOcc_pos ps h
  obtain ⟨t1, s1, s2, t2, h1, h2, ha, hb, rfl⟩ := spells_mid ho.1
  refine ⟨s1, s2, ha, hb, ?_⟩
  intro hm
  obtain ⟨c, hc⟩ := List.mem_iff_getElem?.1 hm
  have hs : Spells ts (u ++ .tok c :: v) (t1 ++ (s1 ++ (s2 ++ t2))) := by
    refine h1.append ?_
    rw [← List.append_assoc]
    exact .cons (Piece.string_tok.2 hc) h2
  have := ho.2 _ hs
  simp only [output_append, output_cons, List.length_append, Piece.output, List.length_cons,
    List.length_nil] at this
  omega

/-- What is known about a pair with a positive count. -/
theorem seen_pair {ts : TokenSet} {samples : List Bytes} {n : Option Nat} {st : TokenStats}
    (hseq : SeqsInRange ts) (h : tokenizeFileSync ts samples n = .ok st) {k : Nat}
    (hk : 0 < st.pairCounts.getD k 0) :
    0 < ts.tokens.length ∧ k < ts.tokens.length * ts.tokens.length ∧
    ∃ s1 s2, ts.tokens[k / ts.tokens.length]? = some (.str s1) ∧
      ts.tokens[k % ts.tokens.length]? = some (.str s2) ∧ Token.str (s1 ++ s2) ∉ ts.tokens ∧
      2 ≤ (s1 ++ s2).length := by
  obtain ⟨tk, d, hn, ht, hw, hsh, _, hc⟩ := sync_inv hseq h
  have h1 : 0 < workSum d samples (.pair k) := by rw [← hc]; exact hk
  obtain ⟨x, _, hx⟩ := workSum_pos h1
  obtain ⟨ps, hl, hlt, ho⟩ := pair_cnt hw hx
  obtain ⟨s1, s2, ha, hb, hnot⟩ := optimal_pair hl.optimal ho
  have hpos : 0 < ts.tokens.length := by
    rcases Nat.eq_zero_or_pos ts.tokens.length with h0 | h0
    · rw [h0] at hlt; omega
    · exact h0
  refine ⟨hpos, hlt, s1, s2, ha, hb, hnot, ?_⟩
  have hne : ∀ s, Token.str s ∈ ts.tokens → s ≠ [] := by
    intro s hs
    exact ht.nonempty s (List.mem_append.2 (.inl (mem_strTokens.2 hs)))
  have e1 := List.length_pos_iff.2 (hne s1 (List.mem_iff_getElem?.2 ⟨_, ha⟩))
  have e2 := List.length_pos_iff.2 (hne s2 (List.mem_iff_getElem?.2 ⟨_, hb⟩))
  rw [List.length_append]; omega

/-! ### The order of the pairs -/

theorem mem_pairOrder {counts : List Nat} {k : Nat} : k ∈ pairOrder counts ↔ 0 < counts.getD k 0 := by
  unfold pairOrder
  rw [(List.mergeSort_perm _ _).mem_iff, List.mem_filter]
  simp only [List.mem_range, decide_eq_true_eq, and_iff_right_iff_imp]
  intro h
  by_contra hc
  rw [getD_ge (by omega)] at h
  omega

theorem pairOrder_sorted (counts : List Nat) :
    (pairOrder counts).Pairwise (fun i j => counts.getD j 0 ≤ counts.getD i 0) := by
  have := List.pairwise_mergeSort (le := fun i j => decide (counts.getD j 0 ≤ counts.getD i 0))
    (by intro a b c h1 h2; simp at *; omega) (by intro a b; simp; omega)
    ((List.range counts.length).filter (fun i => decide (0 < counts.getD i 0)))
  exact this.imp (by simp)

/-- Ties are in the original order. -/
theorem pairOrder_ties (counts : List Nat) :
    (pairOrder counts).Pairwise (fun i j => counts.getD i 0 = counts.getD j 0 → i < j) := by
  rw [List.pairwise_iff_forall_sublist]
  intro i j hs he
  -- otherwise j < i, and stability gives [j, i] too, although there are no duplicates
  have hnd : (pairOrder counts).Nodup := by
    unfold pairOrder
    exact (List.mergeSort_perm _ _).nodup_iff.2 (List.nodup_range.filter _)
  by_contra hc
  have hne : i ≠ j := by
    rintro rfl
    have := hnd.sublist hs
    simp at this
  have hi : i ∈ pairOrder counts := hs.subset (by simp)
  have hj : j ∈ pairOrder counts := hs.subset (by simp)
  have hsub : [j, i].Sublist ((List.range counts.length).filter (fun i => decide (0 < counts.getD i 0))) := by
    have h1 : i ∈ (List.range counts.length).filter (fun i => decide (0 < counts.getD i 0)) :=
      (List.mergeSort_perm _ _).mem_iff.1 hi
    have h2 : j ∈ (List.range counts.length).filter (fun i => decide (0 < counts.getD i 0)) :=
      (List.mergeSort_perm _ _).mem_iff.1 hj
    have hp : ((List.range counts.length).filter (fun i => decide (0 < counts.getD i 0))).Pairwise (· < ·) :=
      List.pairwise_lt_range.filter _
    generalize ((List.range counts.length).filter (fun i => decide (0 < counts.getD i 0))) = l at *
    induction l with
    | nil => simp at h1
    | cons x l ih =>
      rw [List.pairwise_cons] at hp
      rcases List.mem_cons.1 h2 with e2 | h2'
      · rcases List.mem_cons.1 h1 with e1 | h1'
        · exact absurd (e1.trans e2.symm) hne
        · rw [e2]; exact .cons_cons _ (List.singleton_sublist.2 h1')
      · rcases List.mem_cons.1 h1 with e1 | h1'
        · have := hp.1 j h2'; omega
        · exact .cons _ (ih h1' h2' hp.2)
  have hst := List.pair_sublist_mergeSort (le := fun i j => decide (counts.getD j 0 ≤ counts.getD i 0))
    (by intro a b c h1 h2; simp at *; omega) (by intro a b; simp; omega)
    (a := j) (b := i) (decide_eq_true (by omega)) hsub
  have h3 : [j, i].Sublist (pairOrder counts) := hst
  -- both orders contradict Nodup
  have key : ∀ l : List Nat, l.Nodup → [i, j].Sublist l → [j, i].Sublist l → i = j := by
    intro l hl h1 h2
    induction l with
    | nil => simp at h1
    | cons x l ih =>
      rw [List.nodup_cons] at hl
      cases h1 with
      | cons _ h1 =>
        cases h2 with
        | cons _ h2 => exact ih hl.2 h1 h2
        | cons_cons _ h2 => exact absurd (h1.subset (by simp)) hl.1
      | cons_cons _ h1 =>
        cases h2 with
        | cons _ h2 => exact absurd (h2.subset (by simp)) hl.1
        | cons_cons _ h2 => rfl
  exact hne (key _ hnd hs h3)

/-! ### The loop -/

/-- The text of the pair with index `k`, for pairs that were seen. -/
def PairText (ts : TokenSet) (k : Nat) (s : Bytes) : Prop :=
  ∃ s1 s2, ts.tokens[k / ts.tokens.length]? = some (.str s1) ∧
    ts.tokens[k % ts.tokens.length]? = some (.str s2) ∧ s = s1 ++ s2

theorem PairText.unique {ts : TokenSet} {k : Nat} {s t : Bytes} (h1 : PairText ts k s)
    (h2 : PairText ts k t) : s = t := by
  obtain ⟨a, b, ha, hb, rfl⟩ := h1
  obtain ⟨c, d, hc, hd, rfl⟩ := h2
  rw [ha] at hc; rw [hb] at hd
  simp at hc hd
  rw [hc, hd]

theorem bpeLoop_spec {ts : TokenSet} {st : TokenStats} (hts : st.tokenSet = ts)
    (hpos : 0 < ts.tokens.length) (l : List Nat)
    (hl : ∀ k ∈ l, k < st.pairCounts.length ∧ ∃ s, PairText ts k s ∧ 2 ≤ s.length) (cur : Bytes) :
    (∃ pre k post s, l = pre ++ k :: post ∧ PairText ts k s ∧ ¬ HasInnerBreak s ∧
      (∀ j ∈ pre, ∀ t, PairText ts j t → HasInnerBreak t) ∧
      bpeLoop st l cur = .ok (s, st.pairCounts.getD k 0)) ∨
    ((∀ j ∈ l, ∀ t, PairText ts j t → HasInnerBreak t) ∧
      ∃ s, bpeLoop st l cur = .ok (s, 0) ∧
        (l = [] → s = cur) ∧ (∀ k, l.getLast? = some k → PairText ts k s)) := by
  induction l generalizing cur with
  | nil => right; exact ⟨by simp, cur, rfl, fun _ => rfl, by simp⟩
  | cons k l ih =>
    obtain ⟨hk, s, hp, h2⟩ := hl k (by simp)
    obtain ⟨s1, s2, ha, hb, hs12⟩ := id hp
    obtain ⟨b, hv, hvb⟩ := isValid_spec s h2
    have hn0 : ¬ st.ntokens = 0 := by
      unfold TokenStats.ntokens TokenSet.ntokens; rw [hts]; omega
    have hna : st.ntokens = ts.tokens.length := by
      unfold TokenStats.ntokens TokenSet.ntokens; rw [hts]
    have step : bpeLoop st (k :: l) cur =
        if b then (do let c ← getR st.pairCounts k; .ok (s1 ++ s2, c)) else bpeLoop st l (s1 ++ s2) := by
      rw [bpeLoop, if_neg hn0, hna, hts, getR_of ha, R.ok_bind, getR_of hb, R.ok_bind]
      simp only
      rw [← hs12, hv, R.ok_bind]
    rw [step]
    cases b with
    | true =>
      left
      refine ⟨[], k, l, s, rfl, hp, hvb.1 rfl, by simp, ?_⟩
      rw [if_pos rfl, getR_of (List.getElem?_eq_getElem hk), R.ok_bind, ← hs12]
      simp [List.getD_eq_getElem?_getD, List.getElem?_eq_getElem hk]
    | false =>
      have hbr : HasInnerBreak s := by
        by_contra hc
        exact absurd (hvb.2 hc) (by simp)
      rw [if_neg (by simp), ← hs12]
      rcases ih (fun j hj => hl j (by simp [hj])) s with
        ⟨pre, k', post, s', e, h3, h4, h5, h6⟩ | ⟨h3, s', h4, h5, h6⟩
      · left
        refine ⟨k :: pre, k', post, s', by rw [e]; rfl, h3, h4, ?_, h6⟩
        intro j hj t ht
        rcases List.mem_cons.1 hj with rfl | hj
        · rw [ht.unique hp]; exact hbr
        · exact h5 j hj t ht
      · right
        refine ⟨?_, s', h4, by simp, ?_⟩
        · intro j hj t ht
          rcases List.mem_cons.1 hj with rfl | hj
          · rw [ht.unique hp]; exact hbr
          · exact h3 j hj t ht
        · intro j hj
          cases l with
          | nil =>
            simp at hj
            rw [h5 rfl, ← hj]
            exact hp
          | cons x l => exact h6 j (by simpa using hj)

/-- Everything about `add_token_bpe` on statistics of a tokenization. -/
theorem bpe_cases {ts : TokenSet} {samples : List Bytes} {n : Option Nat} {st : TokenStats}
    (hseq : SeqsInRange ts) (h : tokenizeFileSync ts samples n = .ok st) :
    ((∀ k, st.pairCounts.getD k 0 = 0) ∧ addTokenBpe st = .ok none) ∨
    (∃ k s ts' i, 0 < st.pairCounts.getD k 0 ∧ PairText ts k s ∧ ¬ HasInnerBreak s ∧
      (∀ j t, 0 < st.pairCounts.getD j 0 → PairText ts j t → ¬ HasInnerBreak t →
        st.pairCounts.getD j 0 < st.pairCounts.getD k 0 ∨
        (st.pairCounts.getD j 0 = st.pairCounts.getD k 0 ∧ k ≤ j)) ∧
      ts.addToken s = .ok (ts', i) ∧ Token.str s ∉ ts.tokens ∧ 2 ≤ s.length ∧
      addTokenBpe st = .ok (some (ts', (st.pairCounts.getD k 0 : Int)))) ∨
    (∃ k s ts' i, 0 < st.pairCounts.getD k 0 ∧ PairText ts k s ∧
      (∀ j t, 0 < st.pairCounts.getD j 0 → PairText ts j t → HasInnerBreak t) ∧
      (∀ j, 0 < st.pairCounts.getD j 0 → st.pairCounts.getD k 0 ≤ st.pairCounts.getD j 0) ∧
      ts.addToken s = .ok (ts', i) ∧ Token.str s ∉ ts.tokens ∧ 2 ≤ s.length ∧
      addTokenBpe st = .ok (some (ts', 0))) := by
  obtain ⟨_, _, _, _, _, hsh, _, _⟩ := sync_inv hseq h
  have hts := hsh.tokenSet
  by_cases hnil : pairOrder st.pairCounts = []
  · left
    have h0 : ∀ k, st.pairCounts.getD k 0 = 0 := by
      intro k
      by_contra hc
      have : k ∈ pairOrder st.pairCounts := mem_pairOrder.2 (by omega)
      rw [hnil] at this; simp at this
    refine ⟨h0, ?_⟩
    unfold addTokenBpe
    rw [hnil]; rfl
  right
  obtain ⟨k0, hk0⟩ := List.exists_mem_of_ne_nil _ hnil
  obtain ⟨hpos, _⟩ := seen_pair hseq h (mem_pairOrder.1 hk0)
  have hl : ∀ k ∈ pairOrder st.pairCounts, k < st.pairCounts.length ∧
      ∃ s, PairText ts k s ∧ 2 ≤ s.length := by
    intro k hk
    obtain ⟨_, h1, s1, s2, h2, h3, _, h4⟩ := seen_pair hseq h (mem_pairOrder.1 hk)
    exact ⟨by rw [hsh.pairCounts]; exact h1, s1 ++ s2, ⟨s1, s2, h2, h3, rfl⟩, h4⟩
  have hfresh : ∀ k s, 0 < st.pairCounts.getD k 0 → PairText ts k s →
      Token.str s ∉ ts.tokens ∧ 2 ≤ s.length := by
    intro k s hk hp
    obtain ⟨_, _, s1, s2, h2, h3, h4, h5⟩ := seen_pair hseq h hk
    have := hp.unique ⟨s1, s2, h2, h3, rfl⟩
    subst this
    exact ⟨h4, h5⟩
  rcases bpeLoop_spec hts hpos _ hl [] with ⟨pre, k, post, s, e, h1, h2, h3, h4⟩ | ⟨h3, s, h4, _, h6⟩
  · left
    have hk : 0 < st.pairCounts.getD k 0 := mem_pairOrder.1 (by rw [e]; simp)
    obtain ⟨hf1, hf2⟩ := hfresh k s hk h1
    have hne : s ≠ [] := by rintro rfl; simp at hf2
    refine ⟨k, s, _, _, hk, h1, h2, ?_, addToken_eq ts s hne, hf1, hf2, ?_⟩
    · intro j t hj ht hv
      have hm : j ∈ pairOrder st.pairCounts := mem_pairOrder.2 hj
      have hs := pairOrder_sorted st.pairCounts
      have hti := pairOrder_ties st.pairCounts
      rw [e] at hm hs hti
      rcases List.mem_append.1 hm with hm | hm
      · exact absurd (h3 j hm t ht) hv
      · rcases List.mem_cons.1 hm with rfl | hm
        · right; exact ⟨rfl, Nat.le_refl _⟩
        · have a1 := (List.pairwise_cons.1 (List.pairwise_append.1 hs).2.1).1 j hm
          have a2 := (List.pairwise_cons.1 (List.pairwise_append.1 hti).2.1).1 j hm
          rcases Nat.lt_or_ge (st.pairCounts.getD j 0) (st.pairCounts.getD k 0) with hlt | hge
          · exact .inl hlt
          · right
            have : st.pairCounts.getD k 0 = st.pairCounts.getD j 0 := by omega
            exact ⟨this.symm, Nat.le_of_lt (a2 this)⟩
    · unfold addTokenBpe
      rw [h4, R.ok_bind]
      simp only
      rw [if_neg (by simpa using hne), hts, addToken_eq ts s hne]
      rfl
  · right
    obtain ⟨k, hk⟩ : ∃ k, (pairOrder st.pairCounts).getLast? = some k := by
      cases hg : (pairOrder st.pairCounts).getLast? with
      | none => exact absurd (List.getLast?_eq_none_iff.1 hg) hnil
      | some k => exact ⟨k, rfl⟩
    have hp := h6 k hk
    have hmem : k ∈ pairOrder st.pairCounts := List.mem_of_getLast? hk
    have hkp := mem_pairOrder.1 hmem
    obtain ⟨hf1, hf2⟩ := hfresh k s hkp hp
    have hne : s ≠ [] := by rintro rfl; simp at hf2
    refine ⟨k, s, _, _, hkp, hp, ?_, ?_, addToken_eq ts s hne, hf1, hf2, ?_⟩
    · intro j t hj ht
      exact h3 j (mem_pairOrder.2 hj) t ht
    · intro j hj
      have hm : j ∈ pairOrder st.pairCounts := mem_pairOrder.2 hj
      obtain ⟨pre, e⟩ := List.getLast?_eq_some_iff.1 hk
      have hs := pairOrder_sorted st.pairCounts
      rw [e] at hm hs
      rcases List.mem_append.1 hm with hm | hm
      · exact (List.pairwise_append.1 hs).2.2 j hm k (by simp)
      · simp at hm; rw [hm]; exact Nat.le_refl _
    · unfold addTokenBpe
      rw [h4, R.ok_bind]
      simp only
      rw [if_neg (by simpa using hne), hts, addToken_eq ts s hne]
      rfl

end Tokens
