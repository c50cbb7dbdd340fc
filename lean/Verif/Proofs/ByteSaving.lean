import Verif.Proofs.Bpe
import Verif.Proofs.Huff4

/-! `count_tokens_in_bytes`, and how many output tokens a new set of bytes saves. -/

set_option linter.unusedSimpArgs false
set_option linter.unusedVariables false

namespace Tokens
open Spec FragmentTokenizer Batch TokenSet Optimize OptimizeBytes

/-! ### count_tokens_in_bytes -/

theorem costTok_spec (toks : List Token) : ∀ (a : ByteArr (Option Nat)),
    (toks.filterMap (fun t => match t with
      | .str [b] => some b
      | _ => none)).Nodup → (∀ b, Token.str [b] ∈ toks → a b = none) →
    ∃ a', costTok toks a = .ok a' ∧ ∀ b, a' b = if Token.str [b] ∈ toks then some 1 else a b := by
  induction toks with
  | nil => intro a _ _; exact ⟨a, rfl, by simp⟩
  | cons t toks ih =>
    intro a hnd ha
    have skip : (∀ b, t ≠ Token.str [b]) → (toks.filterMap (fun t => match t with
          | .str [b] => some b
          | _ => none)).Nodup → costTok (t :: toks) a = costTok toks a →
        ∃ a', costTok (t :: toks) a = .ok a' ∧
          ∀ b, a' b = if Token.str [b] ∈ t :: toks then some 1 else a b := by
      intro h1 h2 h3
      obtain ⟨a', e1, e2⟩ := ih a h2 (fun b hb => ha b (by simp [hb]))
      refine ⟨a', h3.trans e1, ?_⟩
      intro b
      rw [e2]
      have : (Token.str [b] ∈ t :: toks) ↔ Token.str [b] ∈ toks := by
        simp only [List.mem_cons]
        exact ⟨fun h => h.elim (fun h => absurd h.symm (h1 b)) id, .inr⟩
      simp only [this]
    rcases t with (_ | ⟨b, _ | ⟨d, s⟩⟩) | n
    · exact skip (by simp) (by simpa using hnd) rfl
    · simp only [List.filterMap_cons, List.nodup_cons] at hnd
      have hb : a b = none := ha b (by simp)
      obtain ⟨a', e1, e2⟩ := ih (a.set b (some 1)) hnd.2 (by
        intro c hc
        have hcb : c ≠ b := by
          rintro rfl
          refine hnd.1 (List.mem_filterMap.2 ⟨_, hc, rfl⟩)
        simp [ByteArr.set, hcb, ha c (by simp [hc])])
      refine ⟨a', ?_, ?_⟩
      · rw [costTok, hb]; exact e1
      · intro c
        rw [e2]
        by_cases hc : c = b
        · subst hc; simp [ByteArr.set]
        · simp [ByteArr.set, hc]
    · exact skip (by simp) (by simpa using hnd) rfl
    · exact skip (by simp) (by simpa using hnd) rfl

theorem costSeq_spec (qs : List Sequence) : ∀ (a : ByteArr (Option Nat)),
    ((qs.map (·.string)).filterMap single).Nodup →
    (∀ b, [b] ∈ qs.map (·.string) → a b = none) →
    ∃ a', costSeq qs a = .ok a' ∧ ∀ b, a' b =
      match qs.find? (fun q => decide (q.string = [b])) with
      | some q => some q.tokens.length
      | none => a b := by
  induction qs with
  | nil => intro a _ _; exact ⟨a, rfl, by simp⟩
  | cons q qs ih =>
    intro a hnd ha
    rcases q with ⟨_ | ⟨b, _ | ⟨d, s⟩⟩, l⟩
    · obtain ⟨a', e1, e2⟩ := ih a (by simpa only [List.map_cons, List.filterMap_cons, single] using hnd)
        (fun b hb => ha b (List.mem_cons_of_mem _ hb))
      exact ⟨a', e1, fun c => by rw [e2]; simp⟩
    · simp only [List.map_cons, List.filterMap_cons, single, List.nodup_cons] at hnd
      have hb : a b = none := ha b (by simp)
      obtain ⟨a', e1, e2⟩ := ih (a.set b (some l.length)) hnd.2 (by
        intro c hc
        have hcb : c ≠ b := by
          rintro rfl
          exact hnd.1 (List.mem_filterMap.2 ⟨_, hc, rfl⟩)
        simp [ByteArr.set, hcb, ha c (List.mem_cons_of_mem _ hc)])
      refine ⟨a', ?_, ?_⟩
      · rw [costSeq, hb]; exact e1
      · intro c
        rw [e2]
        by_cases hc : c = b
        · subst hc
          have hf : qs.find? (fun q => decide (q.string = [c])) = none := by
            rw [List.find?_eq_none]
            intro q hq
            simp only [decide_eq_true_eq]
            intro hs
            exact hnd.1 (List.mem_filterMap.2 ⟨_, List.mem_map.2 ⟨q, hq, hs⟩, rfl⟩)
          rw [hf]
          simp [ByteArr.set]
        · have hc' : ¬ b = c := fun h => hc h.symm
          simp only [List.find?_cons, List.cons.injEq, hc', false_and, decide_false, ByteArr.set,
            if_neg hc]
    · obtain ⟨a', e1, e2⟩ := ih a (by simpa only [List.map_cons, List.filterMap_cons, single] using hnd)
        (fun b hb => ha b (List.mem_cons_of_mem _ hb))
      exact ⟨a', e1, fun c => by rw [e2]; simp⟩

/-- The costs of the bytes. -/
theorem cost_array {ts : TokenSet} (h : Tokenizable ts) :
    ∃ a a', costTok ts.tokens (fun _ => none) = .ok a ∧ costSeq ts.sequences a = .ok a' ∧
      ∀ b, a' b = some (byteCost ts b) := by
  obtain ⟨h1, h2, h3, h4⟩ := pieceBytes h
  obtain ⟨a, e1, e2⟩ := costTok_spec ts.tokens (fun _ => none) h1 (by simp)
  have hmem : ∀ b, [b] ∈ ts.sequences.map (·.string) → Token.str [b] ∉ ts.tokens := by
    intro b hb hc
    exact h3 b (List.mem_filterMap.2 ⟨_, hc, rfl⟩) (List.mem_filterMap.2 ⟨_, hb, rfl⟩)
  obtain ⟨a', e3, e4⟩ := costSeq_spec ts.sequences a h2 (by
    intro b hb
    rw [e2, if_neg (hmem b hb)])
  refine ⟨a, a', e1, e3, ?_⟩
  intro b
  rw [e4]
  unfold byteCost
  cases hf : ts.sequences.find? (fun q => decide (q.string = [b])) with
  | some q =>
    have := List.find?_some hf
    have hq := List.mem_of_find?_eq_some hf
    rw [if_neg (hmem b (List.mem_map.2 ⟨q, hq, by simpa using this⟩))]
  | none =>
    simp only
    rw [e2]
    have hm := h.bytes b
    have ht : Token.str [b] ∈ ts.tokens := by
      rcases List.mem_append.1 hm with hm | hm
      · exact mem_strTokens.1 hm
      · obtain ⟨q, hq, hs⟩ := List.mem_map.1 hm
        have := List.find?_eq_none.1 hf q hq
        simp [hs] at this
    rw [if_pos ht, if_pos ht]

theorem sumTok_eq (f : UInt8 → Nat) (cost : ByteArr (Option Nat)) (hcost : ∀ b, cost b = some (f b))
    (toks : List Token) : ∀ (pre cs : List Nat) (total : Nat), toks.length ≤ cs.length →
    sumTok cost (pre ++ cs) toks pre.length total =
      .ok (total + ((tokPairs (toks.zip cs)).map (fun p => f p.1 * p.2)).sum) := by
  induction toks with
  | nil => intro pre cs a _; rfl
  | cons t toks ih =>
    intro pre cs a hl
    cases cs with
    | nil => simp at hl
    | cons c cs =>
      simp at hl
      have hi := ih (pre ++ [c]) cs
      simp only [List.append_assoc, List.singleton_append, List.length_append, List.length_singleton] at hi
      have hg : getR (pre ++ c :: cs) pre.length = .ok c := by
        unfold getR
        rw [List.getElem?_append_right (Nat.le_refl _)]
        simp
      rcases t with (_ | ⟨b, _ | ⟨d, s⟩⟩) | n
      · rw [sumTok]; · exact hi a hl
        simp
      · rw [sumTok, hcost, unwrapR_some, R.ok_bind, hg, R.ok_bind, hi _ hl]
        simp only [List.zip_cons_cons, tokPairs, List.filterMap_cons, List.map_cons, List.sum_cons,
          Nat.add_assoc]
      · rw [sumTok]; · exact hi a hl
        simp
      · rw [sumTok]; · exact hi a hl
        simp

theorem sumSeq_eq (f : UInt8 → Nat) (cost : ByteArr (Option Nat)) (hcost : ∀ b, cost b = some (f b))
    (qs : List Sequence) : ∀ (pre cs : List Nat) (total : Nat), qs.length ≤ cs.length →
    sumSeq cost (pre ++ cs) qs pre.length total =
      .ok (total + ((seqPairs (qs.zip cs)).map (fun p => f p.1 * p.2)).sum) := by
  induction qs with
  | nil => intro pre cs a _; rfl
  | cons t qs ih =>
    intro pre cs a hl
    cases cs with
    | nil => simp at hl
    | cons c cs =>
      simp at hl
      have hi := ih (pre ++ [c]) cs
      simp only [List.append_assoc, List.singleton_append, List.length_append, List.length_singleton] at hi
      have hg : getR (pre ++ c :: cs) pre.length = .ok c := by
        unfold getR
        rw [List.getElem?_append_right (Nat.le_refl _)]
        simp
      rcases t with ⟨_ | ⟨b, _ | ⟨d, s⟩⟩, l⟩
      · rw [sumSeq]; · exact hi a hl
        simp
      · rw [sumSeq, hcost, unwrapR_some, R.ok_bind, hg, R.ok_bind, hi _ hl]
        simp only [List.zip_cons_cons, seqPairs, List.filterMap_cons, List.map_cons, List.sum_cons,
          Nat.add_assoc]
      · rw [sumSeq]; · exact hi a hl
        simp

theorem sum_map_add' {α : Type} (l : List α) (f g : α → Nat) :
    (l.map (fun x => f x + g x)).sum = (l.map f).sum + (l.map g).sum := by
  induction l with
  | nil => rfl
  | cons x l ih => simp only [List.map_cons, List.sum_cons, ih]; omega

theorem sum_map_congr {α : Type} {l : List α} {f g : α → Nat} (h : ∀ x ∈ l, f x = g x) :
    (l.map f).sum = (l.map g).sum := by rw [List.map_congr_left h]

theorem sum_map_zero {α : Type} (l : List α) : (l.map (fun _ => 0)).sum = 0 := by
  induction l with
  | nil => rfl
  | cons x l ih => simp [ih]

theorem sum_at {α : Type} [DecidableEq α] (l : List α) (hnd : l.Nodup) (a : α) (ha : a ∈ l) (v : Nat) :
    (l.map (fun x => if a = x then v else 0)).sum = v := by
  induction l with
  | nil => simp at ha
  | cons x l ih =>
    rw [List.nodup_cons] at hnd
    rcases List.mem_cons.1 ha with rfl | ha'
    · have : (l.map (fun x => if a = x then v else 0)).sum = 0 := by
        rw [List.map_congr_left (g := fun _ => 0), sum_map_zero]
        intro y hy
        rw [if_neg]
        rintro rfl
        exact hnd.1 hy
      simp [this]
    · have : ¬ a = x := by rintro rfl; exact hnd.1 ha'
      simp [this, ih hnd.2 ha']

theorem mem_allBytes' (b : UInt8) : b ∈ allBytes := mem_allBytes b

/-- Summing over the list of pairs is summing over bytes. -/
theorem sum_pairs (f : UInt8 → Nat) (l : List (UInt8 × Nat)) :
    (l.map (fun p => f p.1 * p.2)).sum = (allBytes.map (fun b => f b * sumOf l b)).sum := by
  induction l with
  | nil =>
    rw [List.map_congr_left (l := allBytes) (g := fun _ => 0) (fun b _ => by simp [sumOf]), sum_map_zero]
    rfl
  | cons p l ih =>
    rw [List.map_cons, List.sum_cons, ih]
    have : ∀ b ∈ allBytes, f b * sumOf (p :: l) b = (if p.1 = b then f p.1 * p.2 else 0) + f b * sumOf l b := by
      intro b _
      unfold sumOf
      by_cases h : p.1 = b
      · subst h; simp [Nat.mul_add]
      · have h' : ¬ b = p.1 := fun e => h e.symm
        simp [h, h']
    rw [List.map_congr_left this, sum_map_add', sum_at allBytes allBytes_nodup p.1 (mem_allBytes' _)]

theorem countTokensInBytes_eq {ts : TokenSet} {st : TokenStats} (h : Tokenizable ts)
    (hc : CountsFit st) : countTokensInBytes ts st = .ok (bytesTotal ts st) := by
  obtain ⟨a, a', e1, e2, e3⟩ := cost_array h
  unfold countTokensInBytes
  rw [e1, R.ok_bind, e2, R.ok_bind]
  have s1 := sumTok_eq (byteCost ts) a' e3 st.tokenSet.tokens [] st.tokenCounts 0
    (Nat.le_of_eq hc.tokens.symm)
  simp only [List.nil_append, List.length_nil] at s1
  rw [s1, R.ok_bind]
  have s2 := sumSeq_eq (byteCost ts) a' e3 st.tokenSet.sequences [] st.seqCounts
    (0 + ((tokPairs (st.tokenSet.tokens.zip st.tokenCounts)).map (fun p => byteCost ts p.1 * p.2)).sum)
    (Nat.le_of_eq hc.seqs.symm)
  simp only [List.nil_append, List.length_nil] at s2
  rw [s2, sum_pairs, sum_pairs, bytesTotal_eq, Nat.zero_add, ← sum_map_add']
  refine congrArg _ (sum_map_congr ?_)
  intro b _
  unfold byteUses
  rw [sumOf_tokPairs, sumOf_seqPairs, Nat.mul_add]

/-! ### The saving -/

/-- The byte of a token number. -/
def tokByte (ts : TokenSet) (i : Nat) : Option UInt8 :=
  match ts.tokens[i]? with
  | some (.str [b]) => some b
  | _ => none

/-- The byte of a sequence piece. -/
def seqByte (ts : TokenSet) : Piece → List UInt8
  | .tok _ => []
  | .seq j => match ts.sequences[j]? with
    | some q => (single q.string).toList
    | none => []

/-- The bytes that the statistics count for a piece. -/
def piecesBytes (ts : TokenSet) (p : Piece) : List UInt8 :=
  (p.output ts).filterMap (tokByte ts) ++ seqByte ts p

theorem byteCost_tok {ts : TokenSet} {b : UInt8} (h : Token.str [b] ∈ ts.tokens) : byteCost ts b = 1 := by
  unfold byteCost; rw [if_pos h]

theorem byteCost_seq {ts : TokenSet} (ht : Tokenizable ts) {q : Sequence} {b : UInt8}
    (hq : q ∈ ts.sequences) (hs : q.string = [b]) : byteCost ts b = q.tokens.length := by
  have hnot : Token.str [b] ∉ ts.tokens := by
    intro hc
    have h1 := mem_strTokens.2 hc
    have := (List.nodup_append.1 ht.nodup).2.2 _ h1 _ (List.mem_map.2 ⟨q, hq, hs⟩)
    exact this rfl
  unfold byteCost
  rw [if_neg hnot]
  cases hf : ts.sequences.find? (fun q => decide (q.string = [b])) with
  | none =>
    have := List.find?_eq_none.1 hf q hq
    simp [hs] at this
  | some q' =>
    have h1 := List.find?_some hf
    have hq' := List.mem_of_find?_eq_some hf
    simp only [decide_eq_true_eq] at h1
    have hnd := (List.nodup_append.1 ht.nodup).2.1
    have : q' = q := by
      obtain ⟨i, hi, ei⟩ := List.mem_iff_getElem.1 hq
      obtain ⟨j, hj, ej⟩ := List.mem_iff_getElem.1 hq'
      have hij : i = j := by
        have hi' : i < (ts.sequences.map (·.string)).length := by simpa using hi
        have hj' : j < (ts.sequences.map (·.string)).length := by simpa using hj
        refine (List.getElem_inj hnd (h₀ := hi') (h₁ := hj')).1 ?_
        simp [ei, ej, hs, h1]
      subst hij
      rw [← ei, ← ej]
    rw [this]

/-- Every byte has a piece with its cost. -/
theorem byte_piece {ts : TokenSet} (ht : Tokenizable ts) (b : UInt8) :
    ∃ qs, Spells ts qs [b] ∧ (output ts qs).length = byteCost ts b := by
  have hm := ht.bytes b
  rcases List.mem_append.1 hm with hm | hm
  · have hm' := mem_strTokens.1 hm
    obtain ⟨i, hi⟩ := List.mem_iff_getElem?.1 hm'
    refine ⟨[.tok i], ?_, ?_⟩
    · have := Spells.cons (ps := []) (t := []) (Piece.string_tok.2 hi) .nil
      simpa using this
    · rw [byteCost_tok hm']; simp [output, Piece.output]
  · obtain ⟨q, hq, hs⟩ := List.mem_map.1 hm
    obtain ⟨j, hj⟩ := List.mem_iff_getElem?.1 hq
    refine ⟨[.seq j], ?_, ?_⟩
    · have := Spells.cons (ps := []) (t := []) (Piece.string_seq.2 ⟨q, hj, hs⟩) .nil
      simpa using this
    · rw [byteCost_seq ht hq hs]; simp [output, Piece.output, hj]

theorem byteCost_pos {ts : TokenSet} (ht : Tokenizable ts) (hne : ∀ q ∈ ts.sequences, q.tokens ≠ [])
    (b : UInt8) : 1 ≤ byteCost ts b := by
  have hm := ht.bytes b
  rcases List.mem_append.1 hm with hm | hm
  · rw [byteCost_tok (mem_strTokens.1 hm)]; exact Nat.le_refl _
  · obtain ⟨q, hq, hs⟩ := List.mem_map.1 hm
    rw [byteCost_seq ht hq hs]
    exact List.length_pos_iff.2 (hne q hq)

theorem piece_saving {ts ts' : TokenSet} (ht : Tokenizable ts) (ht' : Tokenizable ts')
    (hne' : ∀ q ∈ ts'.sequences, q.tokens ≠ [])
    (hone : ∀ q ∈ ts.sequences, q.string.length = 1)
    (hlong : ∀ s, 1 < s.length → Token.str s ∈ ts.tokens → Token.str s ∈ ts'.tokens)
    {p : Piece} {s : Bytes} (hp : p.string ts = some s) :
    ∃ qs, Spells ts' qs s ∧
      (output ts' qs).length + ((piecesBytes ts p).map (byteCost ts)).sum ≤
        (p.output ts).length + ((piecesBytes ts p).map (byteCost ts')).sum := by
  have hgen : ∀ l : List UInt8, (∀ b ∈ l, Token.str [b] ∈ ts.tokens) →
      (l.map (byteCost ts)).sum ≤ (l.map (byteCost ts')).sum := by
    intro l hl
    induction l with
    | nil => simp
    | cons b l ih =>
      have h1 := byteCost_tok (hl b (by simp))
      have h2 := byteCost_pos ht' hne' b
      have h3 := ih (fun c hc => hl c (by simp [hc]))
      simp only [List.map_cons, List.sum_cons]
      omega
  have htb : ∀ l : List Nat, ∀ b ∈ l.filterMap (tokByte ts), Token.str [b] ∈ ts.tokens := by
    intro l b hb
    obtain ⟨i, _, hi⟩ := List.mem_filterMap.1 hb
    unfold tokByte at hi
    split at hi
    · next c hc => simp at hi; rw [← hi]; exact List.mem_iff_getElem?.2 ⟨i, hc⟩
    · simp at hi
  cases p with
  | tok i =>
    have hi := Piece.string_tok.1 hp
    have hmem : Token.str s ∈ ts.tokens := List.mem_iff_getElem?.2 ⟨i, hi⟩
    have hs0 : s ≠ [] := ht.nonempty s (List.mem_append.2 (.inl (mem_strTokens.2 hmem)))
    by_cases hl : 1 < s.length
    · obtain ⟨k, hk⟩ := List.mem_iff_getElem?.1 (hlong s hl hmem)
      refine ⟨[.tok k], ?_, ?_⟩
      · have := Spells.cons (ps := []) (t := []) (Piece.string_tok.2 hk) .nil
        simpa using this
      · have : piecesBytes ts (.tok i) = [] := by
          have h1 : tokByte ts i = none := by
            unfold tokByte; rw [hi]
            rcases s with _ | ⟨b, _ | ⟨c, s⟩⟩
            · simp at hl
            · simp at hl
            · rfl
          simp [piecesBytes, seqByte, Piece.output, h1]
        rw [this]; simp [output, Piece.output]
    · obtain ⟨b, rfl⟩ : ∃ b, s = [b] := by
        rcases s with _ | ⟨b, _ | ⟨c, s⟩⟩
        · exact absurd rfl hs0
        · exact ⟨b, rfl⟩
        · simp at hl
      obtain ⟨qs, h1, h2⟩ := byte_piece ht' b
      refine ⟨qs, h1, ?_⟩
      have : piecesBytes ts (.tok i) = [b] := by
        have h1 : tokByte ts i = some b := by unfold tokByte; rw [hi]
        simp [piecesBytes, seqByte, Piece.output, h1]
      rw [this, h2]
      simp [Piece.output, byteCost_tok hmem]
      omega
  | seq j =>
    obtain ⟨q, hq, hs⟩ := Piece.string_seq.1 hp
    have hqm : q ∈ ts.sequences := List.mem_iff_getElem?.2 ⟨j, hq⟩
    have h1 := hone q hqm
    obtain ⟨b, hb⟩ := List.length_eq_one_iff.1 h1
    obtain rfl : s = [b] := by rw [← hs, hb]
    obtain ⟨qs, h2, h3⟩ := byte_piece ht' b
    refine ⟨qs, h2, ?_⟩
    have e : piecesBytes ts (.seq j) = q.tokens.filterMap (tokByte ts) ++ [b] := by
      simp [piecesBytes, seqByte, Piece.output, hq, hb, single]
    have e2 := hgen _ (htb q.tokens)
    rw [e, h3]
    simp only [List.map_append, List.map_cons, List.map_nil, List.sum_append, List.sum_cons,
      List.sum_nil, Piece.output, hq, byteCost_seq ht hqm hb]
    omega

theorem list_saving {ts ts' : TokenSet} (ht : Tokenizable ts) (ht' : Tokenizable ts')
    (hne' : ∀ q ∈ ts'.sequences, q.tokens ≠ [])
    (hone : ∀ q ∈ ts.sequences, q.string.length = 1)
    (hlong : ∀ s, 1 < s.length → Token.str s ∈ ts.tokens → Token.str s ∈ ts'.tokens)
    {ps : List Piece} {t : Bytes} (hp : Spells ts ps t) :
    ∃ qs, Spells ts' qs t ∧
      (output ts' qs).length + ((ps.flatMap (piecesBytes ts)).map (byteCost ts)).sum ≤
        (output ts ps).length + ((ps.flatMap (piecesBytes ts)).map (byteCost ts')).sum := by
  induction hp with
  | nil => exact ⟨[], .nil, by simp [output]⟩
  | @cons p s ps t h1 _ ih =>
    obtain ⟨qs, h2, h3⟩ := ih
    obtain ⟨rs, h4, h5⟩ := piece_saving ht ht' hne' hone hlong h1
    refine ⟨rs ++ qs, h4.append h2, ?_⟩
    rw [output_append, output_cons, List.length_append, List.length_append]
    simp only [List.flatMap_cons, List.map_append, List.sum_append]
    omega

/-! ### Byte uses of a segmentation -/

theorem zip_sum {α : Type} (P : α → Prop) [DecidablePred P] (l : List α) : ∀ (cs : List Nat),
    cs.length = l.length →
    ((l.zip cs).map (fun p => if P p.1 then p.2 else 0)).sum =
      sumTo l.length (fun i => (if (l[i]?.map (fun x => decide (P x))).getD false = true then 1 else 0) * cs.getD i 0) := by
  induction l using List.reverseRecOn with
  | nil => intro cs _; rfl
  | append_singleton l x ih =>
    intro cs h
    simp only [List.length_append, List.length_singleton] at h
    obtain ⟨cs', c, rfl⟩ : ∃ cs' c, cs = cs' ++ [c] := by
      refine ⟨cs.dropLast, cs.getLast (by intro e; simp [e] at h), (List.dropLast_concat_getLast _).symm⟩
    have hl : cs'.length = l.length := by simpa using h
    rw [List.zip_append hl.symm, List.map_append, List.sum_append, ih cs' hl]
    simp only [List.length_append, List.length_singleton, sumTo_succ]
    congr 1
    · apply sumTo_congr
      intro i hi
      rw [List.getElem?_append_left hi]
      simp [List.getD_eq_getElem?_getD, List.getElem?_append_left (hl ▸ hi)]
    · by_cases hx : P x <;>
        simp [hx, ← hl, List.getD_eq_getElem?_getD]

theorem count_filterMap (f : Nat → Option UInt8) (b : UInt8) (l : List Nat) :
    (l.filterMap f).count b = (l.map (fun i => if f i = some b then 1 else 0)).sum := by
  induction l with
  | nil => rfl
  | cons i l ih =>
    cases h : f i with
    | none => simp [h, ih]
    | some c =>
      by_cases hc : c = b
      · subst hc; simp [h, ih]; omega
      · simp [h, hc, ih]

/-- Sum of the uses of a byte over all pieces of a segmentation. -/
theorem uses_seg {ts : TokenSet} (hseq : SeqsInRange ts) {ps : List Piece} {t : Bytes}
    (hp : Spells ts ps t) (b : UInt8) :
    sumTo ts.tokens.length (fun i => (if (ts.tokens[i]?.map (fun x => decide (x = Token.str [b]))).getD false = true
        then 1 else 0) * segCount ts ps t.length (.tok i)) +
      sumTo ts.sequences.length (fun j => (if (ts.sequences[j]?.map (fun x => decide (x.string = [b]))).getD false = true
        then 1 else 0) * segCount ts ps t.length (.seq j)) =
    (ps.flatMap (piecesBytes ts)).count b := by
  have hlt := spells_output_lt hseq hp
  rw [sumTo_congr (g := fun i => (if (ts.tokens[i]?.map (fun x => decide (x = Token.str [b]))).getD false = true
        then 1 else 0) * (output ts ps).count i) (fun i hi => by simp only [segCount, if_pos hi]),
    sumTo_count _ hlt,
    sumTo_congr (f := fun j => (if (ts.sequences[j]?.map (fun x => decide (x.string = [b]))).getD false = true
        then 1 else 0) * segCount ts ps t.length (.seq j))
      (g := fun j => (if (ts.sequences[j]?.map (fun x => decide (x.string = [b]))).getD false = true
        then 1 else 0) * ps.count (.seq j)) (fun i hi => by simp only [segCount, if_pos hi])]
  have htok : ∀ i, (if (ts.tokens[i]?.map (fun x => decide (x = Token.str [b]))).getD false = true then 1 else 0) =
      (if tokByte ts i = some b then 1 else 0) := by
    intro i
    unfold tokByte
    cases ts.tokens[i]? with
    | none => simp
    | some x => rcases x with (_ | ⟨c, _ | ⟨d, s⟩⟩) | n <;> simp
  simp only [htok]
  clear hlt
  induction hp with
  | nil => simp [output, sumTo_zero]
  | @cons p s ps t h1 _ ih =>
    rw [output_cons, List.map_append, List.sum_append, List.flatMap_cons, List.count_append, ← ih]
    unfold piecesBytes
    rw [List.count_append, count_filterMap]
    have hs : sumTo ts.sequences.length (fun j => (if (ts.sequences[j]?.map (fun x => decide (x.string = [b]))).getD false = true
        then 1 else 0) * (p :: ps).count (.seq j)) =
      List.count b (seqByte ts p) +
      sumTo ts.sequences.length (fun j => (if (ts.sequences[j]?.map (fun x => decide (x.string = [b]))).getD false = true
        then 1 else 0) * ps.count (.seq j)) := by
      cases p with
      | tok i =>
        simp only [seqByte, List.count_nil, Nat.zero_add]
        apply sumTo_congr
        intro j _
        rw [List.count_cons_of_ne (by simp)]
      | seq k =>
        obtain ⟨q, hq, hqs⟩ := Piece.string_seq.1 h1
        have hk := (List.getElem?_eq_some_iff.1 hq).1
        rw [sumTo_congr (g := fun j => (if j = k then (if (ts.sequences[k]?.map (fun x => decide (x.string = [b]))).getD false = true then 1 else 0) else 0) +
          (if (ts.sequences[j]?.map (fun x => decide (x.string = [b]))).getD false = true then 1 else 0) * ps.count (.seq j))]
        · rw [sumTo_add, sumTo_single hk]
          simp only [seqByte, hq, Option.map_some, Option.getD_some, decide_eq_true_eq]
          congr 1
          rcases q with ⟨_ | ⟨c, _ | ⟨d, r⟩⟩, l⟩
          · simp [single]
          · by_cases hc : c = b
            · subst hc; simp [single]
            · simp [single, hc]
          · simp [single]
        · intro j _
          by_cases hj : j = k
          · subst hj; simp [Nat.mul_add, Nat.add_comm]
          · rw [List.count_cons_of_ne (by simp [Ne.symm hj])]
            simp [hj]
    rw [hs]
    omega

theorem sumTo_workSum_mul (n : Nat) (w : Nat → Nat) (g : Nat → Ix) (d : Bytes → Ix → Nat) (l : List Bytes) :
    sumTo n (fun i => w i * workSum d l (g i)) = (l.map (fun x => sumTo n (fun i => w i * d x (g i)))).sum := by
  induction l with
  | nil => simp [sumTo_zero]
  | cons x l ih =>
    rw [List.map_cons, List.sum_cons, ← ih, ← sumTo_add]
    apply sumTo_congr
    intro i _
    rw [workSum_cons, Nat.mul_add]

theorem fit_of_sync {ts : TokenSet} {st : TokenStats} (hsh : Shaped ts st) : CountsFit st :=
  ⟨by rw [hsh.tokenCounts, hsh.tokenSet], by rw [hsh.seqCounts, hsh.tokenSet]⟩

theorem sum_count (f : UInt8 → Nat) (l : List UInt8) :
    (l.map f).sum = (allBytes.map (fun b => f b * l.count b)).sum := by
  induction l with
  | nil =>
    rw [List.map_congr_left (l := allBytes) (g := fun _ => 0) (fun b _ => by simp), sum_map_zero]; rfl
  | cons x l ih =>
    rw [List.map_cons, List.sum_cons, ih]
    have : ∀ b ∈ allBytes, f b * (x :: l).count b = (if x = b then f x else 0) + f b * l.count b := by
      intro b _
      by_cases h : x = b
      · subst h; simp [Nat.mul_add, Nat.add_comm]
      · rw [List.count_cons_of_ne h]; simp [h]
    rw [List.map_congr_left this, sum_map_add', sum_at allBytes allBytes_nodup x (mem_allBytes' _)]

/-- The bytes counted in the statistics of a tokenization, as a list per sample. -/
theorem uses_sync {ts : TokenSet} {tk : FragmentTokenizer} {d} {samples : List Bytes} {st : TokenStats}
    (hseq : SeqsInRange ts) (hw : Work ts tk d) (hsh : Shaped ts st)
    (hc : ∀ ix, cnt st ix = workSum d samples ix) :
    ∃ seg : Bytes → List Piece, (∀ x, LongestLast ts (seg x) x ∧ d x = segCount ts (seg x) x.length) ∧
      ∀ b, byteUses st b = (samples.map (fun x => ((seg x).flatMap (piecesBytes ts)).count b)).sum := by
  obtain ⟨seg, hseg⟩ : ∃ seg : Bytes → List Piece,
      ∀ x, LongestLast ts (seg x) x ∧ d x = segCount ts (seg x) x.length :=
    ⟨fun x => Classical.choose (hw.seg x), fun x => Classical.choose_spec (hw.seg x)⟩
  refine ⟨seg, hseg, ?_⟩
  intro b
  unfold byteUses
  rw [hsh.tokenSet, zip_sum (fun t => t = Token.str [b]) ts.tokens st.tokenCounts hsh.tokenCounts,
    zip_sum (fun q : Sequence => q.string = [b]) ts.sequences st.seqCounts hsh.seqCounts]
  have h1 : ∀ i, st.tokenCounts.getD i 0 = workSum d samples (.tok i) := fun i => hc (.tok i)
  have h2 : ∀ i, st.seqCounts.getD i 0 = workSum d samples (.seq i) := fun i => hc (.seq i)
  simp only [h1, h2]
  rw [sumTo_workSum_mul, sumTo_workSum_mul, ← sum_map_add']
  apply sum_map_congr
  intro x _
  rw [← uses_seg hseq (hseg x).1.optimal.1 b, (hseg x).2]

theorem sum_comm_bytes (f : UInt8 → Nat) (g : Bytes → UInt8 → Nat) (l : List Bytes) :
    (allBytes.map (fun b => f b * (l.map (fun x => g x b)).sum)).sum =
      (l.map (fun x => (allBytes.map (fun b => f b * g x b)).sum)).sum := by
  induction l with
  | nil => simp only [List.map_nil, List.sum_nil, Nat.mul_zero]; rw [sum_map_zero]
  | cons x l ih =>
    rw [List.map_cons, List.sum_cons, ← ih, ← sum_map_add']
    apply sum_map_congr
    intro b _
    simp [Nat.mul_add]

/-- A new set of bytes with the same long tokens: the total changes at most as predicted. -/
theorem byte_saving {ts ts' : TokenSet} {samples : List Bytes} {n : Option Nat} {st : TokenStats}
    (hseq : SeqsInRange ts) (h : tokenizeFileSync ts samples n = .ok st)
    (ht' : Tokenizable ts') (hseq' : SeqsInRange ts') (hne' : ∀ q ∈ ts'.sequences, q.tokens ≠ [])
    (hone : ∀ q ∈ ts.sequences, q.string.length = 1)
    (hlong : ∀ s, 1 < s.length → Token.str s ∈ ts.tokens → Token.str s ∈ ts'.tokens) :
    ∃ st', tokenizeFileSync ts' samples n = .ok st' ∧
      st'.totalTokens + bytesTotal ts st ≤ st.totalTokens + bytesTotal ts' st := by
  obtain ⟨tk, d, hn, ht, hw, hsh, _, hc⟩ := sync_inv hseq h
  obtain ⟨tk', hn', _⟩ := new_ok_of ht'
  obtain ⟨d', hw'⟩ := exists_work hn' hseq'
  obtain ⟨st', g1, g2, g3, g4⟩ := sync_ok hn' hw' samples n
  refine ⟨st', g1, ?_⟩
  obtain ⟨seg, hseg, huse⟩ := uses_sync hseq hw hsh hc
  have e1 : st.totalTokens = workSum d samples .total := hc .total
  have e2 : st'.totalTokens = workSum d' samples .total := g4 .total
  have e3 : ∀ f : UInt8 → Nat, (allBytes.map (fun b => f b * byteUses st b)).sum =
      (samples.map (fun x => (((seg x).flatMap (piecesBytes ts)).map f).sum)).sum := by
    intro f
    simp only [huse]
    rw [sum_comm_bytes]
    apply sum_map_congr
    intro x _
    exact (sum_count f _).symm
  rw [bytesTotal_eq, bytesTotal_eq, e3, e3, e1, e2]
  clear e1 e2 e3 huse hc g4 g1 h hsh
  induction samples with
  | nil => simp
  | cons x l ih =>
    obtain ⟨qs, h1, h2⟩ := list_saving ht ht' hne' hone hlong (hseg x).1.optimal.1
    have hmin := (hw'.isMin x).2 qs h1
    have ed : d x .total = (output ts (seg x)).length := by rw [(hseg x).2]; rfl
    simp only [workSum_cons, List.map_cons, List.sum_cons]
    omega

end Tokens
