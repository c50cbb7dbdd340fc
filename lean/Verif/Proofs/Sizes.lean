import Verif.Proofs.Json3
import Verif.Proofs.Huff5
import Verif.Proofs.ByteSaving
import Verif.Spec.Optimizing

/-! Sizes of family sets; totals do not depend on the order of tokens. -/

set_option linter.unusedSimpArgs false
set_option linter.unusedVariables false

namespace Tokens
open Spec TokenSet Optimize Batch

/-- The ext numbers. -/
def extNums (l : List Token) : List UInt8 := l.filterMap (fun t => match t with
  | .ext n => some n
  | .str _ => none)

theorem extNums_length (l : List Token) : (extNums l).length = extCount l := by
  unfold extNums
  induction l with
  | nil => rfl
  | cons t l ih => cases t <;> simpa [extCount] using ih

theorem mem_extNums {l : List Token} {n : UInt8} : n ∈ extNums l ↔ Token.ext n ∈ l := by
  unfold extNums
  rw [List.mem_filterMap]
  constructor
  · rintro ⟨t, h1, h2⟩
    cases t with
    | ext m => simp at h2; subst h2; exact h1
    | str s => simp at h2
  · intro h; exact ⟨_, h, rfl⟩

theorem extNums_nodup {l : List Token} (h : l.Nodup) : (extNums l).Nodup := by
  induction l with
  | nil => simp [extNums]
  | cons t l ih =>
    rw [List.nodup_cons] at h
    cases t with
    | ext n =>
      show (n :: extNums l).Nodup
      rw [List.nodup_cons]
      exact ⟨fun hm => h.1 (mem_extNums.1 hm), ih h.2⟩
    | str s => exact ih h.2

theorem usable_extCount {ts : TokenSet} (h : Usable ts) : ts.nExt = extCount ts.tokens := by
  have h1 : (extNums ts.tokens).Perm (extNums (extTokens ts.nExt)) := by
    rw [List.perm_ext_iff_of_nodup (extNums_nodup h.distinct) (extNums_nodup (nodup_extTokens h.few))]
    intro n
    rw [mem_extNums, mem_extNums, h.exts, exts_extTokens h.few]
  rw [← extNums_length, h1.length_eq, extNums_length, extCount_extTokens]

theorem family_single {ts : TokenSet} (h : Family ts) : ∀ q ∈ ts.sequences, q.string.length = 1 := by
  rcases h with h | h | h
  · intro q hq
    obtain ⟨_, _, hcodes⟩ := h.params
    obtain ⟨b, ds, e, _⟩ := hcodes (q.string, listed ts q) (List.mem_map.2 ⟨q, hq, rfl⟩)
    simp only [Prod.mk.injEq] at e
    rw [e.1]; rfl
  · rw [h.noSeq]; simp
  · exact huff_single h

theorem family_seqLen {ts : TokenSet} (h : Family ts) : ∀ q ∈ ts.sequences, 2 ≤ q.tokens.length := by
  rcases h with h | h | h
  · intro q hq
    obtain ⟨len, hp, hcodes⟩ := h.params
    obtain ⟨b, ds, e, hl, _⟩ := hcodes (q.string, listed ts q) (List.mem_map.2 ⟨q, hq, rfl⟩)
    simp only [Prod.mk.injEq] at e
    have := congrArg List.length e.2
    simp [listed] at this
    rw [this, hl]
    unfold bitsParams at hp
    split at hp <;> simp at hp <;> omega
  · rw [h.noSeq]; simp
  · intro q hq
    obtain ⟨b, c, ds, hne, e⟩ := h.codes (q.string, listed ts q) (List.mem_map.2 ⟨q, hq, rfl⟩)
    simp only [Prod.mk.injEq] at e
    have := congrArg List.length e.2
    simp [listed] at this
    have : 0 < ds.length := List.length_pos_iff.2 hne
    omega

theorem family_identified {ts : TokenSet} (h : Family ts) : Identified ts :=
  ⟨(Tokens.Family.usable h).distinct, usable_extCount (Tokens.Family.usable h), family_seqLen h⟩

theorem nLong_eq (ts : TokenSet) : ts.nLongTokens = (longTokens ts).length := by
  unfold nLongTokens longTokens strTokens
  induction ts.tokens with
  | nil => rfl
  | cons t l ih =>
    cases t with
    | ext n => exact ih
    | str s =>
      by_cases hs : 1 < s.length
      · simp [tokenText, hs] at ih ⊢; exact ih
      · simp [tokenText, hs] at ih ⊢; exact ih

theorem size_split {ts : TokenSet} (h : Usable ts) :
    ts.tokens.length = shortCount ts + (longTokens ts).length := by
  have key : ∀ l : List Token, (∀ s, Token.str s ∈ l → s ≠ []) →
      l.length = extCount l + (l.filterMap (fun t => match t with
        | .str [b] => some b
        | _ => none)).length + ((l.filterMap tokenText).filter (fun s => decide (1 < s.length))).length := by
    intro l
    induction l with
    | nil => intro _; rfl
    | cons t l ih =>
      intro hne
      have ih := ih (fun s hs => hne s (by simp [hs]))
      match t, hne with
      | .ext n, _ =>
        rw [show (Token.ext n :: l).filterMap tokenText = l.filterMap tokenText from rfl]
        simp [extCount] at ih ⊢; omega
      | .str [], hne => exact absurd rfl (hne [] (by simp))
      | .str [b], _ => simp [extCount, tokenText] at ih ⊢; omega
      | .str (a :: b :: s), _ => simp [extCount, tokenText] at ih ⊢; omega
  have := key ts.tokens (fun s hs =>
    h.accepted.nonempty s (List.mem_append.2 (.inl (mem_strTokens.2 hs))))
  rw [← usable_extCount h] at this
  exact this

theorem sameSet_long {a b : TokenSet} (h : SameSet a b) : (longTokens a).Perm (longTokens b) :=
  (h.tokens.filterMap _).filter _

theorem sameSet_short {a b : TokenSet} (h : SameSet a b) : shortCount a = shortCount b := by
  unfold shortCount
  rw [h.header.nExt]
  congr 1
  exact (h.tokens.filterMap _).length_eq

theorem sort_family {ts ts' : TokenSet} (h : Family ts) (hs : ts.sort = .ok ts') : Family ts' := by
  obtain ⟨h1, _, _, h4⟩ := sort_sameSet hs
  exact family_of h (usable_sameSet (Tokens.Family.usable h) h1 h4) (shrinks_sameSet h1)

/-! ### totals -/

theorem dominates_sameSet {a b : TokenSet} (h : SameSet a b) (hr : SeqsInRange a) : Dominates a b := by
  intro p s hp
  cases p with
  | tok i =>
    rw [Piece.string_tok] at hp
    obtain ⟨j, hj⟩ := List.mem_iff_getElem?.1 (h.tokens.mem_iff.1 (List.mem_of_getElem? hp))
    refine ⟨[.tok j], ?_, by simp [output, Piece.output]⟩
    have := Spells.cons (Piece.string_tok.2 hj) (Spells.nil (ts := b))
    rwa [List.append_nil] at this
  | seq i =>
    rw [Piece.string_seq] at hp
    obtain ⟨q, hq, rfl⟩ := hp
    have hm : (q.string, listed a q) ∈ meaning a := List.mem_map.2 ⟨q, List.mem_of_getElem? hq, rfl⟩
    obtain ⟨q', hq', e⟩ := List.mem_map.1 (h.sequences.mem_iff.1 hm)
    simp only [Prod.mk.injEq] at e
    obtain ⟨j, hj⟩ := List.mem_iff_getElem?.1 hq'
    refine ⟨[.seq j], ?_, ?_⟩
    · have := Spells.cons (ts := b) (p := .seq j) (s := q.string) (Piece.string_seq.2 ⟨q', hj, e.1⟩) .nil
      rwa [List.append_nil] at this
    · have := congrArg List.length e.2
      simp [listed] at this
      simp [output, Piece.output, hj, hq, this]

/-- Tokenizing with the same set in another order gives the same total. -/
theorem total_sameSet {a b : TokenSet} (h : SameSet a b) (ha : SeqsInRange a) (hb : SeqsInRange b)
    {samples : List Bytes} {n : Option Nat} {x y : TokenStats}
    (hx : tokenizeFileSync a samples n = .ok x) (hy : tokenizeFileSync b samples n = .ok y) :
    x.totalTokens = y.totalTokens := by
  obtain ⟨_, d1, _, _, w1, _, _, c1⟩ := sync_inv ha hx
  obtain ⟨_, d2, _, _, w2, _, _, c2⟩ := sync_inv hb hy
  have e1 := c1 .total
  have e2 := c2 .total
  have h' : SameSet b a := ⟨⟨h.header.nExt.symm, h.header.tokenType.symm, h.header.processing.symm,
    h.header.splitParagraphs.symm⟩, h.tokens.symm, h.sequences.symm⟩
  have l1 := dominates_sum (dominates_sameSet h ha) w1 w2 samples
  have l2 := dominates_sum (dominates_sameSet h' hb) w2 w1 samples
  simp only [cnt] at e1 e2
  omega

theorem sync_exists {ts : TokenSet} (ht : Tokenizable ts) (hr : SeqsInRange ts) (samples : List Bytes)
    (n : Option Nat) : ∃ st, tokenizeFileSync ts samples n = .ok st := by
  obtain ⟨tk, hn, _⟩ := FragmentTokenizer.new_ok_of ht
  obtain ⟨d, hw⟩ := exists_work hn hr
  obtain ⟨st, h, _⟩ := sync_ok hn hw samples n
  exact ⟨st, h⟩

end Tokens
