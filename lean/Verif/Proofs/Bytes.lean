import Verif.Spec.ByteUse
import Verif.Model.OptimizeBytes
import Verif.Proofs.Family
import Verif.Proofs.Accounting

/-! Byte counts and `SimpleBytesOptimizer`. -/

set_option linter.unusedSimpArgs false
set_option linter.unusedVariables false

namespace Tokens
open Spec TokenSet OptimizeBytes

/-- The byte of a string of one byte. -/
def single : Bytes → Option UInt8
  | [b] => some b
  | _ => none

/-- Single-byte tokens with their counts. -/
def tokPairs (l : List (Token × Nat)) : List (UInt8 × Nat) :=
  l.filterMap (fun p => match p.1 with
    | .str [b] => some (b, p.2)
    | _ => none)

/-- Single-byte sequences with their counts. -/
def seqPairs (l : List (Sequence × Nat)) : List (UInt8 × Nat) :=
  l.filterMap (fun p => match p.1.string with
    | [b] => some (b, p.2)
    | _ => none)

/-- Repeated `a[b] = c`. -/
def setAll (l : List (UInt8 × Nat)) (a : ByteArr Nat) : ByteArr Nat :=
  l.foldl (fun a p => a.set p.1 p.2) a

/-- The sum of the counts of `b`. -/
def sumOf (l : List (UInt8 × Nat)) (b : UInt8) : Nat :=
  (l.map (fun p => if p.1 = b then p.2 else 0)).sum

theorem sumOf_notMem {l : List (UInt8 × Nat)} {b : UInt8} (h : b ∉ l.map Prod.fst) : sumOf l b = 0 := by
  induction l with
  | nil => rfl
  | cons p l ih =>
    simp only [List.map_cons, List.mem_cons, not_or] at h
    have := ih h.2
    unfold sumOf at this ⊢
    simp [Ne.symm h.1, this]

theorem setAll_eq {l : List (UInt8 × Nat)} (h : (l.map Prod.fst).Nodup) (a : ByteArr Nat) (b : UInt8) :
    setAll l a b = if b ∈ l.map Prod.fst then sumOf l b else a b := by
  induction l generalizing a with
  | nil => rfl
  | cons p l ih =>
    simp only [List.map_cons, List.nodup_cons] at h
    have := ih h.2 (a.set p.1 p.2)
    rw [setAll, List.foldl_cons, ← setAll, this]
    by_cases hb : b ∈ l.map Prod.fst
    · rw [if_pos hb, if_pos (by simp only [List.map_cons, List.mem_cons]; exact .inr hb)]
      have : p.1 ≠ b := by rintro rfl; exact h.1 hb
      simp [sumOf, this]
    · rw [if_neg hb]
      by_cases hp : b = p.1
      · rw [if_pos (by simp [hp])]
        have := sumOf_notMem hb
        unfold sumOf at this ⊢
        simp [hp, ByteArr.set]
        rw [← hp]
        exact this.symm ▸ rfl
      · rw [if_neg (by simp only [List.map_cons, List.mem_cons, not_or]; exact ⟨hp, hb⟩)]
        simp [ByteArr.set, hp]

theorem countTokens_eq (toks : List Token) : ∀ (pre cs : List Nat) (a : ByteArr Nat),
    toks.length ≤ cs.length →
    countTokens (pre ++ cs) toks pre.length a = .ok (setAll (tokPairs (toks.zip cs)) a) := by
  induction toks with
  | nil => intro pre cs a _; rfl
  | cons t toks ih =>
    intro pre cs a hl
    cases cs with
    | nil => simp at hl
    | cons c cs =>
      simp at hl
      have hi := ih (pre ++ [c]) cs
      simp only [List.append_assoc, List.singleton_append, List.length_append, List.length_singleton] at hi
      have hg : getR (pre ++ c :: cs) pre.length = .ok c := by
        unfold getR
        rw [List.getElem?_append_right (Nat.le_refl _)]
        simp
      rcases t with (_ | ⟨b, _ | ⟨d, s⟩⟩) | n
      · rw [countTokens]; · exact hi a hl
        simp
      · rw [countTokens, hg]; exact hi _ hl
      · rw [countTokens]; · exact hi a hl
        simp
      · rw [countTokens]; · exact hi a hl
        simp

theorem countSeqs_eq (qs : List Sequence) : ∀ (pre cs : List Nat) (a : ByteArr Nat),
    qs.length ≤ cs.length →
    countSeqs (pre ++ cs) qs pre.length a = .ok (setAll (seqPairs (qs.zip cs)) a) := by
  induction qs with
  | nil => intro pre cs a _; rfl
  | cons t qs ih =>
    intro pre cs a hl
    cases cs with
    | nil => simp at hl
    | cons c cs =>
      simp at hl
      have hi := ih (pre ++ [c]) cs
      simp only [List.append_assoc, List.singleton_append, List.length_append, List.length_singleton] at hi
      have hg : getR (pre ++ c :: cs) pre.length = .ok c := by
        unfold getR
        rw [List.getElem?_append_right (Nat.le_refl _)]
        simp
      rcases t with ⟨_ | ⟨b, _ | ⟨d, s⟩⟩, l⟩
      · rw [countSeqs]; · exact hi a hl
        simp
      · rw [countSeqs, hg]; exact hi _ hl
      · rw [countSeqs]; · exact hi a hl
        simp

theorem tokPairs_fst (toks : List Token) (cs : List Nat) (h : toks.length ≤ cs.length) :
    (tokPairs (toks.zip cs)).map Prod.fst = toks.filterMap (fun t => match t with
      | .str [b] => some b
      | _ => none) := by
  induction toks generalizing cs with
  | nil => rfl
  | cons t toks ih =>
    cases cs with
    | nil => simp at h
    | cons c cs =>
      have := ih cs (by simpa using h)
      unfold tokPairs at this ⊢
      rcases t with (_ | ⟨b, _ | ⟨d, s⟩⟩) | n <;> simpa using this

theorem seqPairs_fst (qs : List Sequence) (cs : List Nat) (h : qs.length ≤ cs.length) :
    (seqPairs (qs.zip cs)).map Prod.fst = (qs.map (·.string)).filterMap single := by
  induction qs generalizing cs with
  | nil => rfl
  | cons t qs ih =>
    cases cs with
    | nil => simp at h
    | cons c cs =>
      have := ih cs (by simpa using h)
      unfold seqPairs at this ⊢
      rcases t with ⟨_ | ⟨b, _ | ⟨d, s⟩⟩, l⟩ <;> simp only [List.zip_cons_cons, List.filterMap_cons, List.map_cons, single, this]

theorem sumOf_tokPairs (l : List (Token × Nat)) (b : UInt8) :
    sumOf (tokPairs l) b = (l.map (fun p => if p.1 = Token.str [b] then p.2 else 0)).sum := by
  induction l with
  | nil => rfl
  | cons p l ih =>
    unfold sumOf tokPairs at ih ⊢
    rcases p with ⟨(_ | ⟨c, _ | ⟨d, s⟩⟩) | n, k⟩ <;> simp [ih]

theorem sumOf_seqPairs (l : List (Sequence × Nat)) (b : UInt8) :
    sumOf (seqPairs l) b = (l.map (fun p => if p.1.string = [b] then p.2 else 0)).sum := by
  induction l with
  | nil => rfl
  | cons p l ih =>
    unfold sumOf seqPairs at ih ⊢
    rcases p with ⟨⟨_ | ⟨c, _ | ⟨d, s⟩⟩, t⟩, k⟩ <;> simp [ih]

theorem byteTokens_eq (ts : TokenSet) : byteTokens ts = (strTokens ts).filterMap single := by
  unfold byteTokens strTokens
  rw [List.filterMap_filterMap]
  congr 1
  funext t
  rcases t with (_ | ⟨c, _ | ⟨d, s⟩⟩) | n <;> rfl

theorem mem_byteTokens {ts : TokenSet} {b : UInt8} : b ∈ byteTokens ts ↔ Token.str [b] ∈ ts.tokens := by
  rw [byteTokens_eq, ← mem_strTokens, List.mem_filterMap]
  constructor
  · rintro ⟨s, h1, h2⟩
    rcases s with _ | ⟨c, _ | ⟨d, s⟩⟩ <;> simp [single] at h2
    subst h2
    exact h1
  · intro h; exact ⟨_, h, rfl⟩

theorem single_inj {a a' : Bytes} {b : UInt8}
    (h1 : b ∈ single a)
    (h2 : b ∈ single a') : a = a' := by
  rcases a with _ | ⟨c, _ | ⟨d, s⟩⟩ <;> rcases a' with _ | ⟨c', _ | ⟨d', s'⟩⟩ <;>
    simp [single] at h1 h2
  rw [h1, h2]

/-- Every byte is spelled by exactly one piece: as a list, the bytes with tokens and the bytes with
sequences are the 256 bytes. -/
theorem pieceBytes {ts : TokenSet} (h : Tokenizable ts) :
    (byteTokens ts).Nodup ∧
    ((ts.sequences.map (·.string)).filterMap single).Nodup ∧
    (∀ b, b ∈ byteTokens ts → b ∉ (ts.sequences.map (·.string)).filterMap single) ∧
    ∀ b, b ∈ byteTokens ts ∨ b ∈ (ts.sequences.map (·.string)).filterMap single := by
  have hnd : ((pieceStrings ts).filterMap single).Nodup := by
    rw [List.Nodup, List.pairwise_filterMap]
    refine List.Pairwise.imp ?_ h.nodup
    intro a a' hne b hb b' hb' hbb
    subst hbb
    exact hne (single_inj (by rw [hb]; rfl) (by rw [hb']; rfl))
  have hall : ∀ b : UInt8, b ∈ (pieceStrings ts).filterMap single := fun b => List.mem_filterMap.2 ⟨[b], h.bytes b, rfl⟩
  unfold pieceStrings at hnd hall
  rw [List.filterMap_append, ← byteTokens_eq] at hnd hall
  rw [List.nodup_append] at hnd
  refine ⟨hnd.1, hnd.2.1, ?_, ?_⟩
  · intro b h1 h2; exact hnd.2.2 b h1 b h2 rfl
  · intro b; exact List.mem_append.1 (hall b)

/-- The statistics have as many counts as the set has tokens and sequences. -/
structure CountsFit (st : TokenStats) : Prop where
  tokens : st.tokenCounts.length = st.tokenSet.tokens.length
  seqs : st.seqCounts.length = st.tokenSet.sequences.length

theorem setAll_uses {st : TokenStats} (h : Tokenizable st.tokenSet) (hc : CountsFit st) (b : UInt8) :
    setAll (seqPairs (st.tokenSet.sequences.zip st.seqCounts))
      (setAll (tokPairs (st.tokenSet.tokens.zip st.tokenCounts)) (fun _ => 0)) b = byteUses st b := by
  obtain ⟨h1, h2, h3, h4⟩ := pieceBytes h
  have e1 := tokPairs_fst st.tokenSet.tokens st.tokenCounts (Nat.le_of_eq hc.tokens.symm)
  have e2 := seqPairs_fst st.tokenSet.sequences st.seqCounts (Nat.le_of_eq hc.seqs.symm)
  rw [setAll_eq (by rw [e2]; exact h2), setAll_eq (by rw [e1]; exact h1)]
  unfold byteUses
  rw [← sumOf_tokPairs, ← sumOf_seqPairs]
  by_cases hb : b ∈ (seqPairs (st.tokenSet.sequences.zip st.seqCounts)).map Prod.fst
  · rw [if_pos hb]
    have : b ∉ (tokPairs (st.tokenSet.tokens.zip st.tokenCounts)).map Prod.fst := by
      rw [e1]; rw [e2] at hb
      exact fun hc => h3 b hc hb
    rw [sumOf_notMem this]
    omega
  · rw [if_neg hb, sumOf_notMem hb]
    by_cases hb' : b ∈ (tokPairs (st.tokenSet.tokens.zip st.tokenCounts)).map Prod.fst
    · rw [if_pos hb', Nat.add_zero]
    · rw [if_neg hb', sumOf_notMem hb']

/-- The counts that the optimizers collect. -/
theorem counts_eq {st : TokenStats} (h : Tokenizable st.tokenSet) (hc : CountsFit st) :
    ∃ a, countTokens st.tokenCounts st.tokenSet.tokens 0 (fun _ => 0) = .ok a ∧
      ∃ a', countSeqs st.seqCounts st.tokenSet.sequences 0 a = .ok a' ∧
        ∀ b, a' b = byteUses st b :=
  ⟨_, countTokens_eq st.tokenSet.tokens [] st.tokenCounts _ (Nat.le_of_eq hc.tokens.symm), _,
    countSeqs_eq st.tokenSet.sequences [] st.seqCounts _ (Nat.le_of_eq hc.seqs.symm),
    setAll_uses h hc⟩

/-! ### The most frequent bytes -/

theorem perm_sum {l l' : List Nat} (h : l.Perm l') : l.sum = l'.sum := by
  induction h with
  | nil => rfl
  | cons x _ ih => simp [ih]
  | swap x y l => simp; omega
  | trans _ _ h1 h2 => rw [h1, h2]

theorem top_sum {u : UInt8 → Nat} (l : List UInt8) (hl : l.Pairwise (fun a b => u b ≤ u a)) :
    ∀ (S : List UInt8) (n : Nat), S.Nodup → (∀ x ∈ S, x ∈ l) → S.length ≤ n →
      (S.map u).sum ≤ ((l.take n).map u).sum := by
  induction l with
  | nil =>
    intro S n _ hs _
    cases S with
    | nil => simp
    | cons x S => exact absurd (hs x (by simp)) (by simp)
  | cons x l ih =>
    intro S n hnd hs hlen
    rw [List.pairwise_cons] at hl
    cases n with
    | zero =>
      have : S = [] := List.length_eq_zero_iff.1 (by omega)
      subst this; simp
    | succ n =>
      rw [List.take_succ_cons, List.map_cons, List.sum_cons]
      by_cases hx : x ∈ S
      · have hp := List.perm_cons_erase hx
        have := ih hl.2 (S.erase x) n (hnd.erase x) (by
          intro y hy
          have hy' := List.mem_of_mem_erase hy
          rcases List.mem_cons.1 (hs y hy') with rfl | h
          · exact absurd hy (List.Nodup.not_mem_erase hnd)
          · exact h) (by rw [List.length_erase_of_mem hx]; omega)
        rw [perm_sum (hp.map u)]
        simp only [List.map_cons, List.sum_cons]
        omega
      · cases S with
        | nil => simp
        | cons y S =>
          rw [List.nodup_cons] at hnd
          have hy : y ∈ l := by
            rcases List.mem_cons.1 (hs y (by simp)) with rfl | h
            · exact absurd (by simp) hx
            · exact h
          have h1 := ih hl.2 S n hnd.2 (by
            intro z hz
            rcases List.mem_cons.1 (hs z (by simp [hz])) with rfl | h
            · exact absurd (by simp [hz]) hx
            · exact h) (by simp at hlen; omega)
          have h2 := hl.1 y hy
          simp only [List.map_cons, List.sum_cons]
          omega

theorem sum_indicator {u : UInt8 → Nat} (l : List UInt8) (S : List UInt8) (hl : l.Nodup) (hS : S.Nodup)
    (hsub : ∀ x ∈ S, x ∈ l) :
    (l.map (fun b => if b ∈ S then u b else 0)).sum = (S.map u).sum := by
  have hp : (l.filter (fun b => decide (b ∈ S))).Perm S := by
    rw [List.perm_ext_iff_of_nodup (hl.filter _) hS]
    intro a
    simp only [List.mem_filter, decide_eq_true_eq]
    exact ⟨fun h => h.2, fun h => ⟨hsub a h, h⟩⟩
  rw [← perm_sum (hp.map u)]
  clear hp hsub hl
  induction l with
  | nil => rfl
  | cons x l ih =>
    by_cases hx : x ∈ S <;> simp [hx, ih]

theorem allBytes_nodup : allBytes.Nodup := by
  unfold allBytes List.Nodup
  rw [List.pairwise_map]
  refine List.Pairwise.imp_of_mem ?_ (List.nodup_range (n := 256))
  intro a b ha hb hne hab
  rw [List.mem_range] at ha hb
  have := congrArg UInt8.toNat hab
  rw [UInt8.toNat_ofNat_of_lt' (show a < 256 by omega), UInt8.toNat_ofNat_of_lt' (show b < 256 by omega)] at this
  exact hne this

theorem allBytes_length : allBytes.length = 256 := by
  unfold allBytes
  rw [List.length_map, List.length_range]

theorem bytesTotal_eq (ts : TokenSet) (st : TokenStats) :
    bytesTotal ts st = (allBytes.map (fun b => byteCost ts b * byteUses st b)).sum := by
  unfold bytesTotal sumTo allBytes
  rw [List.map_map]
  rfl

theorem byCount_pairwise (u : ByteArr Nat) : (byCount u).Pairwise (fun a b => u b ≤ u a) := by
  have := List.pairwise_mergeSort (le := fun a b : UInt8 => decide (u b ≤ u a))
    (fun a b c h1 h2 => by simp at h1 h2 ⊢; omega) (fun a b => by simp; omega) allBytes
  exact this.imp (fun h => by simpa using h)

theorem byCount_perm (u : ByteArr Nat) : (byCount u).Perm allBytes := List.mergeSort_perm _ _

/-- Cost of one byte in a bits set. -/
theorem bits_cost {ts : TokenSet} (h : BitsFamily ts) {len : Nat}
    (hp : bitsParams ts.tokenType = some (ts.nExt, len)) (b : UInt8) :
    byteCost ts b = if b ∈ byteTokens ts then 1 else len := by
  unfold byteCost
  by_cases hb : Token.str [b] ∈ ts.tokens
  · rw [if_pos hb, if_pos (mem_byteTokens.2 hb)]
  · rw [if_neg hb, if_neg (fun h => hb (mem_byteTokens.1 h))]
    obtain ⟨len', hp', hc⟩ := h.params
    rw [hp] at hp'
    simp at hp'
    subst hp'
    cases hf : ts.sequences.find? (fun q => decide (q.string = [b])) with
    | some q =>
      have hm := List.mem_of_find?_eq_some hf
      obtain ⟨b', ds, he, hl, _⟩ := hc (q.string, listed ts q) (List.mem_map.2 ⟨q, hm, rfl⟩)
      simp only [Prod.mk.injEq] at he
      have := congrArg List.length he.2
      simp [listed] at this
      simp [this, hl]
    | none =>
      rw [List.find?_eq_none] at hf
      rcases List.mem_append.1 (h.accepted.bytes b) with h1 | h1
      · exact absurd (mem_strTokens.1 h1) hb
      · obtain ⟨q, hq, hs⟩ := List.mem_map.1 h1
        exact absurd (by simpa using hs) (hf q hq)

theorem bits_total {ts : TokenSet} (h : BitsFamily ts) {len : Nat}
    (hp : bitsParams ts.tokenType = some (ts.nExt, len)) (st : TokenStats) :
    bytesTotal ts st + (len - 1) * ((byteTokens ts).map (byteUses st)).sum =
      len * (allBytes.map (byteUses st)).sum := by
  have hlen : 0 < len := by
    unfold bitsParams at hp
    split at hp <;> simp at hp <;> omega
  rw [bytesTotal_eq, ← sum_indicator allBytes (byteTokens ts) allBytes_nodup (pieceBytes h.accepted).1
    (fun x _ => mem_allBytes x)]
  have hb := bits_cost h hp
  generalize allBytes = l
  induction l with
  | nil => rfl
  | cons x l ih =>
    simp only [List.map_cons, List.sum_cons]
    have hx := hb x
    have : byteCost ts x * byteUses st x + (len - 1) * (if x ∈ byteTokens ts then byteUses st x else 0) =
        len * byteUses st x := by
      rw [hx]
      by_cases h : x ∈ byteTokens ts
      · rw [if_pos h, if_pos h, ← Nat.add_mul]; congr 1; omega
      · rw [if_neg h, if_neg h]; simp
    rw [Nat.mul_add, Nat.mul_add]
    omega

end Tokens
