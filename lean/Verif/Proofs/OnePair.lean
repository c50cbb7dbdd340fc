import Verif.Proofs.Bpe
import Verif.Proofs.Examples

/-! Two different pairs of neighbouring tokens never spell the same text. -/

namespace Tokens
open Spec TokenSet Batch

/-- A beginning of the chosen segmentation is the chosen segmentation of a beginning of the text. -/
theorem longestLast_init {ts : TokenSet} {ps : List Piece} {x : Bytes} (h : LongestLast ts ps x) :
    ∀ us vs, ps = us ++ vs → ∃ t, LongestLast ts us t := by
  induction h with
  | nil =>
    intro us vs e
    have : us = [] := by
      cases us with
      | nil => rfl
      | cons a l => simp at e
    subst this
    exact ⟨[], .nil⟩
  | @snoc ps t p s h1 h2 h3 h4 ih =>
    intro us vs e
    rcases List.eq_nil_or_concat vs with rfl | ⟨vs', q, rfl⟩
    · rw [List.append_nil] at e
      subst e
      exact ⟨_, .snoc h1 h2 h3 h4⟩
    · rw [List.concat_eq_append, ← List.append_assoc] at e
      exact ih us vs' (List.append_inj_left' e rfl)

/-- The last piece is at least as long as that of any other pair of tokens with the same text. -/
theorem pair_longest {ts : TokenSet} {u : List Piece} {a b c d : Nat} {t s1 s2 r1 r2 : Bytes}
    (h : LongestLast ts (u ++ [.tok a, .tok b]) t)
    (ha : ts.tokens[a]? = some (.str s1)) (hb : ts.tokens[b]? = some (.str s2))
    (hc : ts.tokens[c]? = some (.str r1)) (hd : ts.tokens[d]? = some (.str r2))
    (e : s1 ++ s2 = r1 ++ r2) : r2.length ≤ s2.length := by
  generalize hps : u ++ [.tok a, .tok b] = ps at h
  cases h with
  | nil => simp at hps
  | @snoc ps' t' p s h1 h2 h3 h4 =>
    have e' : (u ++ [.tok a]) ++ [.tok b] = ps' ++ [p] := by rw [← hps]; simp
    have e1 := List.append_inj_left' e' rfl
    have e2 := List.append_inj_right' e' rfl
    subst e1
    simp only [List.cons.injEq, and_true] at e2
    subst e2
    rw [Piece.string_tok] at h2
    rw [hb] at h2
    simp only [Option.some.injEq, Token.str.injEq] at h2
    subst h2
    obtain ⟨t1, r, et, g1, g2⟩ := h1.optimal.1.append_inv
    cases g2 with
    | @cons _ s0 _ _ g3 g4 =>
      cases g4
      rw [Piece.string_tok] at g3
      rw [ha] at g3
      simp only [Option.some.injEq, Token.str.injEq] at g3
      subst g3
      refine h4 (u ++ [.tok c]) (.tok d) r2 (Piece.string_tok.2 hd) ⟨?_, ?_⟩
      · have : Spells ts (u ++ [.tok c, .tok d]) (t1 ++ (r1 ++ (r2 ++ []))) :=
          g1.append (.cons (Piece.string_tok.2 hc) (.cons (Piece.string_tok.2 hd) .nil))
        rw [List.append_assoc]
        rw [et]
        simp only [List.append_nil, List.singleton_append, List.append_assoc] at this ⊢
        rw [e]
        exact this
      · intro qs hq
        have := h3.2 qs hq
        simp only [output_append, output_cons, List.length_append, Piece.output, List.length_cons,
          List.length_nil] at this ⊢
        omega

/-- Two pairs that were seen and spell the same text are the same pair. -/
theorem one_pair {ts : TokenSet} {samples : List Bytes} {n : Option Nat} {st : TokenStats}
    (hseq : SeqsInRange ts) (h : tokenizeFileSync ts samples n = .ok st) {k l : Nat} {s : Bytes}
    (hk : 0 < st.pairCounts.getD k 0) (hl : 0 < st.pairCounts.getD l 0)
    (pk : PairText ts k s) (pl : PairText ts l s) :
    k / ts.tokens.length = l / ts.tokens.length ∧ k % ts.tokens.length = l % ts.tokens.length := by
  obtain ⟨tk, d, hn, ht, hw, hsh, _, hc⟩ := sync_inv hseq h
  have get : ∀ k, 0 < st.pairCounts.getD k 0 → ∃ u t,
      LongestLast ts (u ++ [.tok (k / ts.tokens.length), .tok (k % ts.tokens.length)]) t := by
    intro k hk
    have h1 : 0 < workSum d samples (.pair k) := by rw [← hc]; exact hk
    obtain ⟨x, hx, hpos⟩ := workSum_pos h1
    obtain ⟨ps, hl, _, ho⟩ := pair_cnt hw hpos
    obtain ⟨u, v, rfl⟩ := pairOcc_pos ps ho
    obtain ⟨t, ht⟩ := longestLast_init hl (u ++ [.tok (k / ts.tokens.length), .tok (k % ts.tokens.length)]) v
      (by simp)
    exact ⟨u, t, ht⟩
  obtain ⟨s1, s2, ha, hb, e⟩ := pk
  obtain ⟨r1, r2, hc', hd, e'⟩ := pl
  obtain ⟨u, t, g⟩ := get k hk
  obtain ⟨u', t', g'⟩ := get l hl
  have q1 := pair_longest g ha hb hc' hd (e.symm.trans e')
  have q2 := pair_longest g' hc' hd ha hb (e'.symm.trans e)
  have hlen : s2.length = r2.length := by omega
  obtain ⟨rfl, rfl⟩ := List.append_inj' (e.symm.trans e') hlen
  have z1 := piece_unique ht.nodup (Piece.string_tok.2 ha) (Piece.string_tok.2 hc')
  have z2 := piece_unique ht.nodup (Piece.string_tok.2 hb) (Piece.string_tok.2 hd)
  simp only [Piece.tok.injEq] at z1 z2
  exact ⟨z1, z2⟩

end Tokens
