import Verif.Proofs.Bpe

/-! How many output tokens a new pair token saves. -/

set_option linter.unusedSimpArgs false
set_option linter.unusedVariables false

namespace Tokens
open Spec FragmentTokenizer Batch TokenSet Optimize

/-- The number of merges when pairs `a`, `b` are merged from the left. -/
def mergedSave (a b : Nat) : List Piece → Nat
  | .tok x :: .tok y :: rest =>
    if x = a ∧ y = b then 1 + mergedSave a b rest else mergedSave a b (.tok y :: rest)
  | _ :: rest => mergedSave a b rest
  | [] => 0

theorem pairOcc_cons_le (a b : Nat) (p : Piece) (ps : List Piece) :
    pairOcc a b (p :: ps) ≤ 1 + pairOcc a b ps := by
  cases p with
  | seq j => cases ps <;> simp [pairOcc]
  | tok x =>
    cases ps with
    | nil => simp [pairOcc]
    | cons q ps =>
      cases q with
      | seq j => simp [pairOcc]
      | tok y => simp only [pairOcc]; split <;> omega

theorem pairOcc_cons_ne {a b x : Nat} (h : x ≠ a) (ps : List Piece) :
    pairOcc a b (.tok x :: ps) = pairOcc a b ps := by
  cases ps with
  | nil => simp [pairOcc]
  | cons q ps =>
    cases q with
    | seq j => simp [pairOcc]
    | tok y => simp [pairOcc, h]

theorem pairOcc_le_merged (a b : Nat) (ps : List Piece) : pairOcc a b ps ≤ 2 * mergedSave a b ps := by
  fun_induction mergedSave a b ps with
  | case1 x y rest hxy ih =>
    rw [pairOcc, if_pos hxy]
    have := pairOcc_cons_le a b (.tok y) rest
    omega
  | case2 x y rest hxy ih => rw [pairOcc, if_neg hxy]; omega
  | case3 p rest hne ih => rw [pairOcc]; · exact ih
                           · exact hne
  | case4 => simp [pairOcc]

theorem pairOcc_eq_merged {a b : Nat} (hab : a ≠ b) (ps : List Piece) :
    pairOcc a b ps = mergedSave a b ps := by
  fun_induction mergedSave a b ps with
  | case1 x y rest hxy ih =>
    rw [pairOcc, if_pos hxy, hxy.2, pairOcc_cons_ne (Ne.symm hab), ih]
  | case2 x y rest hxy ih => rw [pairOcc, if_neg hxy]; omega
  | case3 p rest hne ih => rw [pairOcc]; · exact ih
                           · exact hne
  | case4 => simp [pairOcc]

theorem spells_cons {ts : TokenSet} {p : Piece} {ps : List Piece} {t : Bytes} (h : Spells ts (p :: ps) t) :
    ∃ s r, p.string ts = some s ∧ Spells ts ps r ∧ t = s ++ r := by
  cases h with
  | cons h1 h2 => exact ⟨_, _, h1, h2, rfl⟩

theorem merged_spells {ts ts' : TokenSet} (hd : Dominates ts ts') {a b c : Nat} {s1 s2 : Bytes}
    (ha : ts.tokens[a]? = some (.str s1)) (hb : ts.tokens[b]? = some (.str s2))
    (hc : ts'.tokens[c]? = some (.str (s1 ++ s2))) (ps : List Piece) :
    ∀ t, Spells ts ps t →
      ∃ qs, Spells ts' qs t ∧ (output ts' qs).length + mergedSave a b ps ≤ (output ts ps).length := by
  fun_induction mergedSave a b ps with
  | case1 x y rest hxy ih =>
    intro t h
    obtain ⟨rfl, rfl⟩ := hxy
    obtain ⟨u, r, h1, h2, rfl⟩ := spells_cons h
    obtain ⟨v, r', h3, h4, rfl⟩ := spells_cons h2
    obtain ⟨qs, h5, h6⟩ := ih r' h4
    have e1 : u = s1 := by have := Piece.string_tok.1 h1; rw [ha] at this; simpa using this.symm
    have e2 : v = s2 := by have := Piece.string_tok.1 h3; rw [hb] at this; simpa using this.symm
    subst e1; subst e2
    refine ⟨.tok c :: qs, ?_, ?_⟩
    · rw [← List.append_assoc]
      exact .cons (Piece.string_tok.2 hc) h5
    · simp only [output_cons, List.length_append, Piece.output, List.length_cons, List.length_nil]
      omega
  | case2 x y rest hxy ih =>
    intro t h
    obtain ⟨u, r, h1, h2, rfl⟩ := spells_cons h
    obtain ⟨qs, h5, h6⟩ := ih r h2
    obtain ⟨rs, h7, h8⟩ := hd _ _ h1
    refine ⟨rs ++ qs, h7.append h5, ?_⟩
    rw [output_append, output_cons, List.length_append, List.length_append]
    omega
  | case3 p rest hne ih =>
    intro t h
    obtain ⟨u, r, h1, h2, rfl⟩ := spells_cons h
    obtain ⟨qs, h5, h6⟩ := ih r h2
    obtain ⟨rs, h7, h8⟩ := hd _ _ h1
    refine ⟨rs ++ qs, h7.append h5, ?_⟩
    rw [output_append, output_cons, List.length_append, List.length_append]
    omega
  | case4 =>
    intro t h
    cases h
    exact ⟨[], .nil, by simp [output]⟩

/-- In an optimal segmentation no sequence with less than two tokens spells what a pair spells. -/
theorem optimal_pair_seq {ts : TokenSet} {a b : Nat} {ps : List Piece} {x : Bytes}
    (ho : Optimal ts x ps) (h : 0 < pairOcc a b ps) {s1 s2 : Bytes}
    (ha : ts.tokens[a]? = some (.str s1)) (hb : ts.tokens[b]? = some (.str s2)) :
    ∀ q ∈ ts.sequences, q.string = s1 ++ s2 → 2 ≤ q.tokens.length := by
  obtain ⟨u, v, rfl⟩ := pairOcc_pos ps h
  obtain ⟨t1, s1', s2', t2, h1, h2, ha', hb', rfl⟩ := spells_mid ho.1
  rw [ha] at ha'; rw [hb] at hb'
  simp at ha' hb'
  subst ha'; subst hb'
  intro q hq hs
  obtain ⟨j, hj⟩ := List.mem_iff_getElem?.1 hq
  have hsp : Spells ts (u ++ .seq j :: v) (t1 ++ (s1 ++ (s2 ++ t2))) := by
    refine h1.append ?_
    rw [← List.append_assoc]
    exact .cons (Piece.string_seq.2 ⟨q, hj, hs⟩) h2
  have := ho.2 _ hsp
  simp only [output_append, output_cons, List.length_append, Piece.output, List.length_cons,
    List.length_nil, hj] at this
  omega

/-- Adding the text of a pair that was seen: the new set is usable and the total goes down. -/
theorem pair_saving {ts ts' : TokenSet} {samples : List Bytes} {n : Option Nat} {st : TokenStats}
    (hseq : SeqsInRange ts) (h : tokenizeFileSync ts samples n = .ok st) {k : Nat} {s : Bytes} {i : Nat}
    (hk : 0 < st.pairCounts.getD k 0) (hp : PairText ts k s) (ha : ts.addToken s = .ok (ts', i)) :
    ∃ st', tokenizeFileSync ts' samples n = .ok st' ∧
      2 * st'.totalTokens + st.pairCounts.getD k 0 ≤ 2 * st.totalTokens ∧
      (k / ts.tokens.length ≠ k % ts.tokens.length →
        st'.totalTokens + st.pairCounts.getD k 0 ≤ st.totalTokens) := by
  obtain ⟨hpos, hlt, s1, s2, ha1, hb1, hnot, hlen⟩ := seen_pair hseq h hk
  obtain rfl := hp.unique ⟨s1, s2, ha1, hb1, rfl⟩
  obtain ⟨tk, d, hn, ht, hw, hsh, _, hc⟩ := sync_inv hseq h
  have hne : s1 ++ s2 ≠ [] := by intro e; rw [e] at hlen; simp at hlen
  have hq : ∀ q ∈ ts.sequences, q.string = s1 ++ s2 → q.tokens ≠ [] := by
    have h1 : 0 < workSum d samples (.pair k) := by rw [← hc]; exact hk
    obtain ⟨x, _, hx⟩ := workSum_pos h1
    obtain ⟨ps, hl, _, ho⟩ := pair_cnt hw hx
    intro q hq hs e
    have := optimal_pair_seq hl.optimal ho ha1 hb1 q hq hs
    rw [e] at this; simp at this
  have hdom := dominates_addToken hq ha
  obtain ⟨tk', hn', _⟩ := new_ok_of (tokenizable_addToken ht hnot ha)
  obtain ⟨d', hw'⟩ := exists_work hn' (seqsInRange_addToken hseq ha)
  obtain ⟨st', g1, g2, g3, g4⟩ := sync_ok hn' hw' samples n
  have hnewtok : ts'.tokens[ts.tokens.length]? = some (.str (s1 ++ s2)) := by
    rw [addToken_eq ts _ hne] at ha
    simp at ha
    rw [← ha.1]; simp
  have key : ∀ x, ∃ m, d x (.pair k) ≤ 2 * m ∧ d' x .total + m ≤ d x .total ∧
      (k / ts.tokens.length ≠ k % ts.tokens.length → d x (.pair k) = m) := by
    intro x
    obtain ⟨ps, hl, e⟩ := hw.seg x
    obtain ⟨qs, h1, h2⟩ := merged_spells hdom ha1 hb1 hnewtok ps x hl.optimal.1
    have hmin := (hw'.isMin x).2 qs h1
    have e1 : d x .total = (output ts ps).length := by rw [e]; rfl
    have e2 : d x (.pair k) = pairOcc (k / ts.tokens.length) (k % ts.tokens.length) ps := by
      rw [e]; simp only [segCount, if_pos hlt]
    refine ⟨mergedSave (k / ts.tokens.length) (k % ts.tokens.length) ps, ?_, ?_, ?_⟩
    · rw [e2]; exact pairOcc_le_merged _ _ ps
    · rw [e1]; omega
    · intro hab; rw [e2]; exact pairOcc_eq_merged hab ps
  have e1 : st.totalTokens = workSum d samples .total := hc .total
  have e2 : st'.totalTokens = workSum d' samples .total := g4 .total
  have e3 : st.pairCounts.getD k 0 = workSum d samples (.pair k) := hc (.pair k)
  refine ⟨st', g1, ?_, ?_⟩
  · rw [e1, e2, e3]
    clear h hc g4 g1 hk e1 e2 e3
    induction samples with
    | nil => simp
    | cons x l ih =>
      obtain ⟨m, h1, h2, _⟩ := key x
      simp only [workSum_cons]
      omega
  · intro hab
    rw [e1, e2, e3]
    clear h hc g4 g1 hk e1 e2 e3
    induction samples with
    | nil => simp
    | cons x l ih =>
      obtain ⟨m, h1, h2, h3⟩ := key x
      have := h3 hab
      simp only [workSum_cons]
      omega

end Tokens
