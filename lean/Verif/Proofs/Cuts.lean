import Verif.Spec.Cuts
import Verif.Props.Batch
import Verif.Proofs.Sizes

/-! Cutting data into samples. -/

set_option linter.unusedSimpArgs false
set_option linter.unusedVariables false

namespace Tokens
open Spec TokenSet Batch

theorem byte_piece_within {ts : TokenSet} {k : Nat} (hk : BytesWithin ts k) (b : UInt8) :
    ∃ p : Piece, p.string ts = some [b] ∧ (p.output ts).length ≤ k := by
  rcases hk.2 b with h | ⟨q, hq, h1, h2⟩
  · obtain ⟨i, hi⟩ := List.getElem?_of_mem (mem_strTokens.1 h)
    refine ⟨.tok i, ?_, ?_⟩
    · simp [Piece.string, hi]
    · simpa [Piece.output] using hk.1
  · obtain ⟨j, hj⟩ := List.getElem?_of_mem hq
    refine ⟨.seq j, ?_, ?_⟩
    · simp [Piece.string, hj, h1]
    · simpa [Piece.output, hj] using h2

theorem output_append (ts : TokenSet) (ps qs : List Piece) :
    (output ts (ps ++ qs)).length = (output ts ps).length + (output ts qs).length := by
  simp [output]

theorem output_cons (ts : TokenSet) (p : Piece) (ps : List Piece) :
    (output ts (p :: ps)).length = (p.output ts).length + (output ts ps).length := by
  simp [output]

theorem spells_bytes {ts : TokenSet} {k : Nat} (hk : BytesWithin ts k) (text : Bytes) :
    ∃ ps, Spells ts ps text ∧ (output ts ps).length ≤ text.length * k := by
  induction text with
  | nil => exact ⟨[], .nil, by simp [output]⟩
  | cons b t ih =>
    obtain ⟨ps, h1, h2⟩ := ih
    obtain ⟨p, h3, h4⟩ := byte_piece_within hk b
    refine ⟨p :: ps, .cons (s := [b]) h3 h1, ?_⟩
    rw [output_cons, List.length_cons, Nat.succ_mul]
    omega

theorem piece_string_mem {ts : TokenSet} {p : Piece} {s : Bytes} (h : p.string ts = some s) :
    s ∈ pieceStrings ts := by
  unfold pieceStrings
  rw [List.mem_append]
  cases p with
  | tok i =>
    left
    rw [mem_strTokens]
    simp only [Piece.string] at h
    split at h
    · rename_i x hx
      cases h
      exact List.mem_of_getElem? hx
    · cases h
  | seq j =>
    right
    simp only [Piece.string] at h
    split at h
    · rename_i q hq
      cases h
      exact List.mem_map.2 ⟨q, List.mem_of_getElem? hq, rfl⟩
    · cases h

/-- Cutting a segmentation in two. -/
theorem cut_spells {ts : TokenSet} {m k : Nat} (hm : PiecesUpTo ts m) (hk : BytesWithin ts k)
    {ps : List Piece} {t : Bytes} (h : Spells ts ps t) : ∀ u v, t = u ++ v →
      ∃ qs rs, Spells ts qs u ∧ Spells ts rs v ∧
        (output ts qs).length + (output ts rs).length ≤ (output ts ps).length + m * k := by
  induction h with
  | nil =>
    intro u v h
    obtain ⟨rfl, rfl⟩ := List.append_eq_nil_iff.1 h.symm
    exact ⟨[], [], .nil, .nil, by simp [output]⟩
  | @cons p s ps t hp hs ih =>
    intro u v h
    rcases List.append_eq_append_iff.1 h with ⟨a, h1, h2⟩ | ⟨b, h1, h2⟩
    · obtain ⟨qs, rs, g1, g2, g3⟩ := ih a v h2
      refine ⟨p :: qs, rs, ?_, g2, ?_⟩
      · rw [h1]; exact .cons hp g1
      · rw [output_cons, output_cons]; omega
    · obtain ⟨qs, g1, g2⟩ := spells_bytes hk u
      obtain ⟨rs, g3, g4⟩ := spells_bytes hk b
      refine ⟨qs, rs ++ ps, g1, ?_, ?_⟩
      · rw [h2]; exact g3.append hs
      · have hl := hm s (piece_string_mem hp)
        rw [h1, List.length_append] at hl
        have := Nat.mul_le_mul_right k hl
        rw [Nat.add_mul] at this
        rw [output_append, output_cons]
        omega

/-- Cutting a segmentation into many. -/
theorem cuts_spells {ts : TokenSet} {m k : Nat} (hm : PiecesUpTo ts m) (hk : BytesWithin ts k)
    (seg : Bytes → List Piece) : ∀ (xs : List Bytes) (_ : ∀ x ∈ xs, Optimal ts x (seg x)) (ps : List Piece)
    (_ : Spells ts ps xs.flatten),
      (xs.map (fun x => (output ts (seg x)).length)).sum ≤ (output ts ps).length + (xs.length - 1) * (m * k)
  | [], _, _, _ => by simp
  | [x], ho, ps, hp => by
    have := (ho x (by simp)).2 ps (by simpa using hp)
    simpa using this
  | x :: y :: xs, ho, ps, hp => by
    obtain ⟨qs, rs, g1, g2, g3⟩ := cut_spells hm hk hp x (y :: xs).flatten (by simp)
    have h1 := (ho x (by simp)).2 qs g1
    have h2 := cuts_spells hm hk seg (y :: xs) (fun z hz => ho z (List.mem_cons_of_mem _ hz)) rs g2
    rw [List.map_cons, List.sum_cons]
    simp only [List.length_cons, Nat.add_sub_cancel] at h2 ⊢
    rw [Nat.add_mul]
    omega

/-- Joining segmentations. -/
theorem join_spells {ts : TokenSet} (seg : Bytes → List Piece) :
    ∀ (xs : List Bytes) (_ : ∀ x ∈ xs, Optimal ts x (seg x)),
      Spells ts (xs.flatMap seg) xs.flatten ∧
      (output ts (xs.flatMap seg)).length = (xs.map (fun x => (output ts (seg x)).length)).sum
  | [], _ => ⟨.nil, by simp [output]⟩
  | x :: xs, ho => by
    obtain ⟨h1, h2⟩ := join_spells seg xs (fun z hz => ho z (List.mem_cons_of_mem _ hz))
    refine ⟨?_, ?_⟩
    · rw [List.flatMap_cons, List.flatten_cons]
      exact (ho x (by simp)).1.append h1
    · rw [List.flatMap_cons, output_append, h2]; simp

/-- A piece of at most `m` bytes with at least one token. -/
theorem spells_length_le {ts : TokenSet} {m : Nat} (hm : PiecesUpTo ts m)
    (hne : ∀ q ∈ ts.sequences, q.tokens ≠ []) {ps : List Piece} {t : Bytes} (h : Spells ts ps t) :
    t.length ≤ m * (output ts ps).length := by
  induction h with
  | nil => simp
  | @cons p s ps t hp hs ih =>
    have h1 : 1 ≤ (p.output ts).length := by
      cases p with
      | tok i => simp [Piece.output]
      | seq j =>
        simp only [Piece.string] at hp
        split at hp
        · rename_i q hq
          simp only [Piece.output, hq]
          exact List.length_pos_iff.2 (hne q (List.mem_of_getElem? hq))
        · cases hp
    have h2 := hm s (piece_string_mem hp)
    rw [List.length_append, output_cons, Nat.mul_add]
    have := Nat.le_mul_of_pos_right m h1
    omega

theorem family_bytesWithin {ts : TokenSet} (h : Family ts) : BytesWithin ts (tokensPerByte ts.tokenType) := by
  have key : ∀ k, 1 ≤ k → (∀ q ∈ ts.sequences, q.tokens.length ≤ k) → BytesWithin ts k := by
    intro k hk hq
    refine ⟨hk, fun b => ?_⟩
    have := (Tokens.Family.usable h).accepted.bytes b
    unfold pieceStrings at this
    rcases List.mem_append.1 this with h | h
    · exact .inl h
    · obtain ⟨q, h1, h2⟩ := List.mem_map.1 h
      exact .inr ⟨q, h1, h2, hq q h1⟩
  rcases h with h | h | h
  · obtain ⟨len, hp, hcodes⟩ := h.params
    have hl : ∀ q ∈ ts.sequences, q.tokens.length = len := by
      intro q hq
      obtain ⟨b, ds, e, hl, _⟩ := hcodes (q.string, listed ts q) (List.mem_map.2 ⟨q, hq, rfl⟩)
      simp only [Prod.mk.injEq] at e
      have := congrArg List.length e.2
      simp [listed] at this
      omega
    have hlen : tokensPerByte ts.tokenType = len ∧ 1 ≤ len := by
      cases hty : ts.tokenType <;> rw [hty] at hp <;> simp [bitsParams] at hp <;> rw [← hp.2] <;> decide
    rw [hlen.1]
    exact key _ hlen.2 (fun q hq => Nat.le_of_eq (hl q hq))
  · rw [h.type]
    exact key 1 (Nat.le_refl _) (by rw [h.noSeq]; simp)
  · rw [h.type]
    refine key 256 (by decide) ?_
    intro q hq
    have := h.short (q.string, listed ts q) (List.mem_map.2 ⟨q, hq, rfl⟩)
    simpa [listed] using this

end Tokens
