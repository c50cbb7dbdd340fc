import Verif.Proofs.Saving
import Verif.Proofs.Family

/-! The file "\n\na" with the bytes set: add_token_bpe adds "\n\n", then "\n\na". -/

set_option linter.unusedSimpArgs false
set_option linter.unusedVariables false

namespace Tokens
open Spec TokenSet Optimize Batch

namespace Example

/-- The bytes set. -/
def bytes0 : TokenSet := bytesSet .raw

/-- The bytes set with "\n\n". -/
def bytes1 : TokenSet := { bytes0 with tokens := bytes0.tokens ++ [.str [10, 10]] }

theorem bytes0_len : bytes0.tokens.length = 256 := by decide +kernel
theorem bytes1_len : bytes1.tokens.length = 257 := by decide +kernel

theorem bytes0_get (b : UInt8) : bytes0.tokens[b.toNat]? = some (.str [b]) := by
  have h : ∀ c < 256, bytes0.tokens[c]? = some (.str [UInt8.ofNat c]) := by decide +kernel
  have := h b.toNat b.toNat_lt
  rwa [UInt8.ofNat_toNat] at this

theorem bytes0_str {s : Bytes} (h : Token.str s ∈ bytes0.tokens) : ∃ b, s = [b] := by
  have : Token.str s ∈ byteStrings.map Token.str := h
  obtain ⟨t, ht, e⟩ := List.mem_map.1 this
  cases e
  exact mem_byteStrings.1 ht

theorem bytes1_str {s : Bytes} (h : Token.str s ∈ bytes1.tokens) : s = [10, 10] ∨ ∃ b, s = [b] := by
  have : Token.str s ∈ bytes0.tokens ++ [.str [10, 10]] := h
  rcases List.mem_append.1 this with h | h
  · exact .inr (bytes0_str h)
  · simp at h; exact .inl h

theorem bytes1_add : bytes0.addToken [10, 10] = .ok (bytes1, 256) := by
  have := addToken_eq bytes0 [10, 10] (by simp)
  rw [bytes0_len] at this
  exact this

theorem bytes0_usable : Usable bytes0 := (bytesSet_family _).toUsable

theorem bytes1_fresh : Token.str [10, 10] ∉ bytes0.tokens := by
  intro h; obtain ⟨b, hb⟩ := bytes0_str h; simp at hb

theorem bytes1_usable : Usable bytes1 := usable_add bytes0_usable bytes1_fresh bytes1_add

theorem noSeq_pieces {ts : TokenSet} (h : ts.sequences = []) {p : Piece} {s : Bytes}
    (hp : p.string ts = some s) : ∃ i, p = .tok i ∧ ts.tokens[i]? = some (.str s) := by
  cases p with
  | tok i => exact ⟨i, rfl, Piece.string_tok.1 hp⟩
  | seq j => rw [Piece.string_seq, h] at hp; simp at hp

theorem nodup_index {ts : TokenSet} (hu : ts.tokens.Nodup) {i j : Nat} {t : Token}
    (hi : ts.tokens[i]? = some t) (hj : ts.tokens[j]? = some t) : i = j := by
  obtain ⟨h1, e1⟩ := List.getElem?_eq_some_iff.1 hi
  obtain ⟨h2, e2⟩ := List.getElem?_eq_some_iff.1 hj
  exact (List.getElem_inj hu (h₀ := h1) (h₁ := h2)).1 (e1.trans e2.symm)

theorem bytes0_seg (x : Bytes) : ∀ ps, Spells bytes0 ps x → ps = x.map (fun b => Piece.tok b.toNat) := by
  intro ps h
  induction h with
  | nil => rfl
  | @cons p s ps t hp _ ih =>
    obtain ⟨i, rfl, hi⟩ := noSeq_pieces rfl hp
    obtain ⟨b, rfl⟩ := bytes0_str (List.mem_of_getElem? hi)
    rw [nodup_index bytes0_usable.distinct hi (bytes0_get b), ih]
    rfl

theorem bytes1_get : bytes1.tokens[256]? = some (.str [10, 10]) ∧ bytes1.tokens[97]? = some (.str [97]) := by
  decide +kernel

theorem out_noSeq {ts : TokenSet} (h : ts.sequences = []) {ps : List Piece} {t : Bytes}
    (hs : Spells ts ps t) : (output ts ps).length = ps.length := by
  induction hs with
  | nil => rfl
  | cons hp _ ih =>
    obtain ⟨i, rfl, _⟩ := noSeq_pieces h hp
    rw [output_cons]
    simp [Piece.output, ih]

theorem bytes1_seg {ps : List Piece} (h : Optimal bytes1 [10, 10, 97] ps) : ps = [.tok 256, .tok 97] := by
  have h1 : Spells bytes1 [.tok 256, .tok 97] [10, 10, 97] :=
    .cons (s := [10, 10]) (t := [97]) (Piece.string_tok.2 bytes1_get.1)
      (.cons (s := [97]) (t := []) (Piece.string_tok.2 bytes1_get.2) .nil)
  have h2 := h.2 _ h1
  have h0 : bytes1.sequences = [] := rfl
  rw [out_noSeq h0 h.1, out_noSeq h0 h1] at h2
  obtain ⟨hs, _⟩ := h
  match ps, hs, h2 with
  | [], hs, _ => have := spells_nil_inv hs; simp at this
  | [p], hs, _ =>
    obtain ⟨s, u, hp, hu, e⟩ := spells_cons_inv hs
    have := spells_nil_inv hu
    subst this
    obtain ⟨i, rfl, hi⟩ := noSeq_pieces h0 hp
    simp at e
    subst e
    rcases bytes1_str (List.mem_of_getElem? hi) with e | ⟨b, e⟩ <;> simp at e
  | [p, q], hs, _ =>
    obtain ⟨s, u, hp, hu, e⟩ := spells_cons_inv hs
    obtain ⟨r, v, hq, hv, rfl⟩ := spells_cons_inv hu
    have := spells_nil_inv hv
    subst this
    obtain ⟨i, rfl, hi⟩ := noSeq_pieces h0 hp
    obtain ⟨j, rfl, hj⟩ := noSeq_pieces h0 hq
    have hd := bytes1_usable.distinct
    rcases bytes1_str (List.mem_of_getElem? hi) with rfl | ⟨b, rfl⟩
    · simp at e
      subst e
      rw [nodup_index hd hi bytes1_get.1, nodup_index hd hj bytes1_get.2]
    · simp at e
      obtain ⟨rfl, rfl⟩ := e
      rcases bytes1_str (List.mem_of_getElem? hj) with e | ⟨b, e⟩ <;> simp at e
  | p :: q :: r :: l, hs, h2 => simp at h2

/-- The statistics of the file "\n\na" with the bytes set, and what is added. -/
theorem step0 : ∃ st, tokenizeFileSync bytes0 [[10, 10, 97]] none = .ok st ∧ st.totalTokens = 3 ∧
    pairCount st 10 10 = 1 ∧ addTokenBpe st = .ok (some (bytes1, 1)) := by
  obtain ⟨tk, hn, _⟩ := FragmentTokenizer.new_ok_of bytes0_usable.accepted
  obtain ⟨d, hw⟩ := exists_work hn bytes0_usable.inRange
  obtain ⟨st, h1, hsh, h3, h4⟩ := sync_ok hn hw [[10, 10, 97]] none
  have hseg : d [10, 10, 97] = segCount bytes0 [.tok 10, .tok 10, .tok 97] 3 := by
    obtain ⟨ps, hl, hd⟩ := hw.seg [10, 10, 97]
    rw [hd, bytes0_seg _ _ hl.optimal.1]
    rfl
  have hpc : ∀ k, st.pairCounts.getD k 0 = segCount bytes0 [.tok 10, .tok 10, .tok 97] 3 (.pair k) := by
    intro k
    have := h4 (.pair k)
    rw [workSum_cons, hseg] at this
    simpa [cnt] using this
  have hpc' : ∀ k, 0 < st.pairCounts.getD k 0 → k = 2570 ∨ k = 2657 := by
    intro k hk
    rw [hpc] at hk
    simp only [segCount, bytes0_len] at hk
    split at hk
    · by_cases ha : 10 = k / 256 ∧ 10 = k % 256
      · left; omega
      · by_cases hb : 10 = k / 256 ∧ 97 = k % 256
        · right; omega
        · simp only [pairOcc, if_neg ha, if_neg hb] at hk
          omega
    · omega
  have e1 : st.pairCounts.getD 2570 0 = 1 := by
    rw [hpc]
    simp [segCount, bytes0_len, pairOcc]
  have htot : st.totalTokens = 3 := by
    have := h4 .total
    rw [workSum_cons, hseg] at this
    exact this
  have t1 : PairText bytes0 2570 [10, 10] :=
    ⟨[10], [10], by rw [bytes0_len]; exact bytes0_get 10, by rw [bytes0_len]; exact bytes0_get 10, rfl⟩
  have t2 : PairText bytes0 2657 [10, 97] :=
    ⟨[10], [97], by rw [bytes0_len]; exact bytes0_get 10, by rw [bytes0_len]; exact bytes0_get 97, rfl⟩
  have v1 : ¬ HasInnerBreak [10, 10] := by
    rintro ⟨u, x, v, e, _⟩
    have := congrArg List.length e
    simp at this
    omega
  refine ⟨st, h1, htot, by unfold pairCount; rw [hsh.tokenSet, bytes0_len]; exact e1, ?_⟩
  rcases bpe_cases bytes0_usable.inRange h1 with ⟨h0, _⟩ | ⟨k, s, ts', i, hk, hp, hv, hbest, ha, _, _, hr⟩ |
      ⟨k, s, ts', i, hk, hp, hall, _⟩
  · have := h0 2570; omega
  · have hk1 : st.pairCounts.getD k 0 = 1 ∧ k = 2570 := by
      have hb := hbest 2570 _ (by omega) t1 v1
      rcases hpc' k hk with rfl | rfl
      · exact ⟨e1, rfl⟩
      · have e2 : st.pairCounts.getD 2657 0 = 1 := by
          rw [hpc]
          simp [segCount, bytes0_len, pairOcc]
        omega
    obtain ⟨e, rfl⟩ := hk1
    rw [hp.unique t1] at ha
    have : ts' = bytes1 := congrArg Prod.fst (Except.ok.inj (ha.symm.trans bytes1_add))
    rw [hr, e, this]
    rfl
  · exact absurd (hall 2570 _ (by omega) t1) v1

/-- The next call adds "\n\na". -/
theorem step1 : ∃ st, tokenizeFileSync bytes1 [[10, 10, 97]] none = .ok st ∧
    (∀ a b s, SeenPair st a b s → HasInnerBreak s) ∧
    ∃ ts2 i, addTokenBpe st = .ok (some (ts2, 0)) ∧ bytes1.addToken [10, 10, 97] = .ok (ts2, i) := by
  obtain ⟨tk, hn, _⟩ := FragmentTokenizer.new_ok_of bytes1_usable.accepted
  obtain ⟨d, hw⟩ := exists_work hn bytes1_usable.inRange
  obtain ⟨st, h1, hsh, h3, h4⟩ := sync_ok hn hw [[10, 10, 97]] none
  have hseg : d [10, 10, 97] = segCount bytes1 [.tok 256, .tok 97] 3 := by
    obtain ⟨ps, hl, hd⟩ := hw.seg [10, 10, 97]
    rw [hd, bytes1_seg hl.optimal]
    rfl
  have hpc : ∀ k, st.pairCounts.getD k 0 = segCount bytes1 [.tok 256, .tok 97] 3 (.pair k) := by
    intro k
    have := h4 (.pair k)
    rw [workSum_cons, hseg] at this
    simpa [cnt] using this
  have hpc' : ∀ k, 0 < st.pairCounts.getD k 0 → k = 65889 := by
    intro k hk
    rw [hpc] at hk
    simp only [segCount, bytes1_len] at hk
    split at hk
    · by_cases ha : 256 = k / 257 ∧ 97 = k % 257
      · omega
      · simp only [pairOcc, if_neg ha] at hk
        omega
    · omega
  have e1 : st.pairCounts.getD 65889 0 = 1 := by
    rw [hpc]
    simp [segCount, bytes1_len, pairOcc]
  have t1 : PairText bytes1 65889 [10, 10, 97] :=
    ⟨[10, 10], [97], by rw [bytes1_len]; exact bytes1_get.1, by rw [bytes1_len]; exact bytes1_get.2, rfl⟩
  have v1 : HasInnerBreak [10, 10, 97] := ⟨[], 97, [], rfl, by decide⟩
  refine ⟨st, h1, ?_, ?_⟩
  · rintro a b s ⟨hs, s1, s2, ha, hb, rfl⟩
    unfold pairCount at hs
    rw [hsh.tokenSet, bytes1_len] at hs
    have hk := hpc' _ hs
    rw [hsh.tokenSet] at ha hb
    obtain ⟨hb', _⟩ := List.getElem?_eq_some_iff.1 hb
    rw [bytes1_len] at hb'
    have ea : a = 256 := by omega
    have eb : b = 97 := by omega
    subst ea eb
    rw [bytes1_get.1] at ha
    rw [bytes1_get.2] at hb
    simp at ha hb
    rw [← ha, ← hb]; exact v1
  rcases bpe_cases bytes1_usable.inRange h1 with ⟨h0, _⟩ | ⟨k, s, ts', i, hk, hp, hv, _⟩ |
      ⟨k, s, ts', i, hk, hp, _, _, ha, _, _, hr⟩
  · have := h0 65889; omega
  · have := hpc' k hk
    subst this
    rw [hp.unique t1] at hv
    exact absurd v1 hv
  · have := hpc' k hk
    subst this
    rw [hp.unique t1] at ha
    exact ⟨ts', i, hr, ha⟩

end Example
end Tokens
