import Verif.Proofs.Coding
import Verif.Proofs.ByteSaving
import Verif.Proofs.Accounting

/-!
The tokens of a set are a code for texts.
-/

namespace Tokens
open Spec

theorem lift_fin {n : Nat} (l : List Nat) : (∀ i ∈ l, i < n) → ∃ m : List (Fin n), m.map Fin.val = l := by
  induction l with
  | nil => intro _; exact ⟨[], rfl⟩
  | cons a l ih =>
    intro h
    obtain ⟨m, hm⟩ := ih (fun i hi => h i (List.mem_cons_of_mem _ hi))
    exact ⟨⟨a, h a (by simp)⟩ :: m, by rw [List.map_cons, hm]⟩

/-- A piece for every byte, of the cost that `byteCost` says. -/
theorem byte_one_piece {ts : TokenSet} (ht : Tokenizable ts) (b : UInt8) :
    ∃ p : Piece, p.string ts = some [b] ∧ (p.output ts).length = byteCost ts b := by
  rcases List.mem_append.1 (ht.bytes b) with h | h
  · have h := mem_strTokens.1 h
    obtain ⟨i, hi⟩ := List.mem_iff_getElem?.1 h
    refine ⟨.tok i, by simp only [Piece.string, hi], ?_⟩
    rw [byteCost_tok h]; rfl
  · obtain ⟨q, hq, e⟩ := List.mem_map.1 h
    obtain ⟨j, hj⟩ := List.mem_iff_getElem?.1 hq
    refine ⟨.seq j, by simp only [Piece.string, hj, e], ?_⟩
    rw [byteCost_seq ht hq e]
    simp only [Piece.output, hj]

theorem spells_byte_pieces {ts : TokenSet} (p : UInt8 → Piece) (hp : ∀ b, (p b).string ts = some [b]) (s : Bytes) :
    Spells ts (s.map p) s := by
  induction s with
  | nil => exact .nil
  | cons b s ih => exact .cons (s := [b]) (hp b) ih

/-- The byte codes of a lossless set are readable. -/
theorem byte_code {ts : TokenSet} (ht : Tokenizable ts) (hr : SeqsInRange ts) (hl : Lossless ts) :
    ∃ code : UInt8 → List (Fin ts.tokens.length), ReadableCode code ∧ ∀ b, (code b).length = byteCost ts b := by
  have h1 := byte_one_piece ht
  choose p hp hlen using h1
  have h2 : ∀ b, ∃ m : List (Fin ts.tokens.length), m.map Fin.val = (p b).output ts :=
    fun b => lift_fin _ (piece_output_lt hr (hp b))
  choose code hcode using h2
  refine ⟨code, ?_, fun b => by rw [← hlen b, ← hcode b, List.length_map]⟩
  intro s t e
  obtain ⟨decode, hd⟩ := hl
  have ho : ∀ s : Bytes, (s.flatMap code).map Fin.val = output ts (s.map p) := by
    intro s
    unfold output
    induction s with
    | nil => rfl
    | cons b s ih => simp only [List.flatMap_cons, List.map_append, List.map_cons, hcode, ih]
  rw [← hd _ s (spells_byte_pieces p hp s), ← hd _ t (spells_byte_pieces p hp t)]
  unfold tokensOut
  rw [← ho s, ← ho t, e]

theorem allBytes_length' : allBytes.length = 256 := allBytes_length

/-- At least two symbols are needed to write bytes. -/
theorem two_symbols {k : Nat} {code : UInt8 → List (Fin k)} (h : ReadableCode code) : 2 ≤ k := by
  by_contra hk
  rcases (by omega : k = 0 ∨ k = 1) with rfl | rfl
  · have e : ∀ b, code b = [] := by
      intro b
      cases hb : code b with
      | nil => rfl
      | cons x _ => exact x.elim0
    have := h [0] [] (by simp [e])
    cases this
  · have := kraft_bytes (by omega) h
    simp only [Nat.cast_one, div_one, one_pow, List.map_const', List.sum_replicate, allBytes_length, nsmul_eq_mul, mul_one] at this
    norm_num at this

/-- Fewer than `n ^ m` lists are shorter than `m`. -/
theorem few_lists {n m : Nat} (hn : 2 ≤ n) (ls : List (List (Fin n))) (hnd : ls.Nodup)
    (hl : ∀ l ∈ ls, l.length < m) : ls.length < n ^ m := by
  classical
  let z : Fin n := ⟨0, by omega⟩
  let o : Fin n := ⟨1, by omega⟩
  have hzo : o ≠ z := by intro e; exact absurd (congrArg Fin.val e : (1 : Nat) = 0) Nat.one_ne_zero
  let pad : List (Fin n) → List (Fin n) := fun l => l ++ o :: List.replicate (m - 1 - l.length) z
  have inj0 : ∀ (a b : List (Fin n)) (i j : Nat), a ++ o :: List.replicate i z = b ++ o :: List.replicate j z → a = b := by
    intro a
    induction a with
    | nil =>
      intro b i j e
      cases b with
      | nil => rfl
      | cons x b =>
        rw [List.nil_append, List.cons_append] at e
        have h1 := (List.cons.inj e).2
        have : o ∈ List.replicate i z := by rw [h1]; simp
        exact absurd (List.eq_of_mem_replicate this) hzo
    | cons x a ih =>
      intro b i j e
      cases b with
      | nil =>
        rw [List.nil_append, List.cons_append] at e
        have h1 := (List.cons.inj e).2
        have : o ∈ List.replicate j z := by rw [← h1]; simp
        exact absurd (List.eq_of_mem_replicate this) hzo
      | cons y b =>
        rw [List.cons_append, List.cons_append] at e
        obtain ⟨e1, e2⟩ := List.cons.inj e
        rw [e1, ih b i j e2]
  have inj : Function.Injective pad := fun a b e => inj0 a b _ _ e
  let T : Finset (List (Fin n)) := insert (List.replicate m z) ((ls.map pad).toFinset)
  have hT : ∀ x ∈ T, x.length = m := by
    intro x hx
    rcases Finset.mem_insert.1 hx with rfl | hx
    · exact List.length_replicate
    · obtain ⟨l, h1, rfl⟩ := List.mem_map.1 (List.mem_toFinset.1 hx)
      have := hl l h1
      simp only [pad, List.length_append, List.length_cons, List.length_replicate]
      omega
  have hz : List.replicate m z ∉ (ls.map pad).toFinset := by
    intro hx
    obtain ⟨l, h1, e⟩ := List.mem_map.1 (List.mem_toFinset.1 hx)
    have : o ∈ List.replicate m z := by rw [← e]; simp [pad]
    exact absurd (List.eq_of_mem_replicate this) hzo
  have hcard : T.card = ls.length + 1 := by
    rw [Finset.card_insert_of_notMem hz, List.toFinset_card_of_nodup (hnd.map inj), List.length_map]
  have h1 := Finset.card_filter_length_eq_le (T := T) (s := m)
  rw [Finset.filter_true_of_mem hT, hcard, Fintype.card_fin] at h1
  omega

theorem allTexts_length (len : Nat) : (allTexts len).length = 256 ^ len := by
  induction len with
  | zero => rfl
  | succ len ih =>
    rw [allTexts, List.length_flatMap]
    simp only [List.length_map, ih]
    rw [List.map_const', List.sum_replicate, allBytes_length, smul_eq_mul, Nat.pow_succ, Nat.mul_comm]

theorem allTexts_nodup (len : Nat) : (allTexts len).Nodup := by
  induction len with
  | zero => exact List.nodup_singleton _
  | succ len ih =>
    rw [allTexts, List.nodup_flatMap]
    refine ⟨fun b _ => ih.map (fun a c e => (List.cons.inj e).2), ?_⟩
    refine allBytes_nodup.imp ?_
    intro a b hab x hx hy
    obtain ⟨s, _, e1⟩ := List.mem_map.1 hx
    obtain ⟨t, _, e2⟩ := List.mem_map.1 hy
    rw [← e2] at e1
    exact hab (List.cons.inj e1).1

theorem mem_allTexts {len : Nat} {x : Bytes} : x ∈ allTexts len ↔ x.length = len := by
  induction len generalizing x with
  | zero => simp [allTexts]
  | succ len ih =>
    rw [allTexts, List.mem_flatMap]
    constructor
    · rintro ⟨b, _, h⟩
      obtain ⟨t, ht, rfl⟩ := List.mem_map.1 h
      rw [List.length_cons, ih.1 ht]
    · intro h
      cases x with
      | nil => cases h
      | cons b t => exact ⟨b, mem_allBytes b, List.mem_map.2 ⟨t, ih.2 (by simpa using h), rfl⟩⟩

end Tokens
