import Verif.Proofs.Examples

/-!
# Properties C12 - C15: operations on token sets

Read together with `Verif/Spec/Views.lean`.
-/

namespace Tokens.Props
open Tokens Spec TokenSet

/-! ## C12 sort -/

/-- **C12**.  `sort` succeeds exactly if the sequences refer to existing tokens. -/
theorem C12_sort_succeeds_iff (ts : TokenSet) :
    (∃ ts', ts.sort = .ok ts') ↔ SeqsInRange ts := sort_ok_iff ts

/-- **C12**.  `sort` only renumbers: same header, same tokens, same listed tokens for every
sequence string; and the result is in order. -/
theorem C12_sort_keeps_meaning (ts ts' : TokenSet) (h : ts.sort = .ok ts') :
    SameSet ts' ts ∧ ts'.tokens.Pairwise TokenBefore ∧
      ts'.sequences.Pairwise (fun a b => a.string ≤ b.string) ∧ SeqsInRange ts' := sort_sameSet h

/-- **C12**.  Sorting a sorted set changes nothing. -/
theorem C12_sort_idempotent (ts ts' : TokenSet) (h : ts.sort = .ok ts') : ts'.sort = .ok ts' :=
  sort_idem h

/-- **C12**.  Sets that differ only in numbering and order (with distinct tokens and distinct
sequence strings) sort to the identical set. -/
theorem C12_sort_canonical (a b a' b' : TokenSet) (hs : SameSet a b) (hnd : a.tokens.Nodup)
    (hqd : (a.sequences.map (·.string)).Nodup) (ha : a.sort = .ok a') (hb : b.sort = .ok b') :
    a' = b' := sort_canonical hs hnd hqd ha hb

/-- The unsorted set of the repository's own `sort` test. -/
def sortExample : TokenSet :=
  { nExt := 2, tokenType := .bytesHuff, processing := .raw, splitParagraphs := true,
    tokens := [.ext 0, .ext 1, .str [98], .str [97], .str [99]],
    sequences := [{ string := [101], tokens := [3, 0] }, { string := [100], tokens := [2, 3, 1] }] }

example : SeqsInRange sortExample ∧ sortExample.tokens.Nodup ∧
    (sortExample.sequences.map (·.string)).Nodup := by
  refine ⟨?_, by decide, by decide⟩
  intro q hq
  simp [sortExample] at hq ⊢
  rcases hq with rfl | rfl <;> simp

-- renumbering really happens: the two sets below are the same up to numbering
example : SameSet sortExample
    { sortExample with
      tokens := [.ext 0, .ext 1, .str [97], .str [98], .str [99]],
      sequences := [{ string := [101], tokens := [2, 0] },
        { string := [100], tokens := [3, 2, 1] }] } := by
  refine ⟨⟨rfl, rfl, rfl, rfl⟩, ?_, ?_⟩
  · exact .cons _ (.cons _ (.swap _ _ _))
  · rfl

/-! ## C13 remove_token -/

/-- **C13**.  `remove_token` panics exactly if the index is out of range or a sequence uses the
token. -/
theorem C13_remove_succeeds_iff (ts : TokenSet) (idx : Nat) :
    (∃ ts', ts.removeToken idx = .ok ts') ↔
      idx < ts.tokens.length ∧ ∀ q ∈ ts.sequences, idx ∉ q.tokens := removeToken_ok_iff ts idx

/-- **C13**.  `remove_token` removes exactly that token; every other token stays and every
sequence, in the same place, lists the same tokens for its string. -/
theorem C13_remove_keeps_rest (ts ts' : TokenSet) (idx : Nat) (hr : SeqsInRange ts)
    (h : ts.removeToken idx = .ok ts') :
    SameHeader ts' ts ∧ ts'.tokens.Perm (ts.tokens.eraseIdx idx) ∧ meaning ts' = meaning ts ∧
      SeqsInRange ts' := by
  obtain ⟨h1, h2, h3, h4, _⟩ := removeToken_spec hr h
  exact ⟨h1, h2, h3, h4⟩

/-- **C13**.  Removing a token longer than one byte from an accepted set leaves an accepted
set. -/
theorem C13_remove_long_accepted (ts ts' : TokenSet) (idx : Nat) (s : Bytes) (hr : SeqsInRange ts)
    (hacc : ∃ tk, FragmentTokenizer.new ts = .ok tk) (htok : ts.tokens[idx]? = some (.str s))
    (hlong : 1 < s.length) (h : ts.removeToken idx = .ok ts') :
    ∃ tk, FragmentTokenizer.new ts' = .ok tk := by
  obtain ⟨tk, hacc⟩ := hacc
  have hok := (FragmentTokenizer.ok_of_new hacc).2
  obtain ⟨tk', h', _⟩ := FragmentTokenizer.new_ok_of (tokenizable_remove hr hok htok hlong h)
  exact ⟨tk', h'⟩

-- the set of the repository's `remove_token` test; token 3 is "bc"
def removeExample : TokenSet :=
  { nExt := 2, tokenType := .bytesHuff, processing := .raw, splitParagraphs := true,
    tokens := [.ext 0, .ext 1, .str [97], .str [98, 99], .str [99]],
    sequences := [{ string := [100], tokens := [2, 0] }, { string := [101], tokens := [4, 2, 1] }] }

example : removeExample.removeToken 3 = .ok { removeExample with
    tokens := [.ext 0, .ext 1, .str [97], .str [99]],
    sequences := [{ string := [100], tokens := [2, 0] },
      { string := [101], tokens := [3, 2, 1] }] } := rfl

-- in the accepted set `grown`, token 17 is "ab" and no sequence uses it
example : (∃ tk, FragmentTokenizer.new Example.grown = .ok tk) ∧ SeqsInRange Example.grown ∧
    Example.grown.tokens[17]? = some (.str [97, 98]) ∧
    ∃ ts', Example.grown.removeToken 17 = .ok ts' := by
  refine ⟨?_, Example.grown_ok.2, rfl, ?_⟩
  · obtain ⟨tk, h, _⟩ := FragmentTokenizer.new_ok_of Example.grown_ok.1
    exact ⟨tk, h⟩
  · rw [C13_remove_succeeds_iff]
    refine ⟨by decide, ?_⟩
    intro q hq hmem
    have h1 := (List.mem_filter.1 hq).1
    have := Example.bits4_inRange q h1 17 hmem
    simp [Example.bits4, bitsSet, extTokens] at this

/-! ## C14 add_token -/

/-- **C14**.  `add_token` of a non-empty string. -/
theorem C14_add_token (ts : TokenSet) (s : Bytes) (hs : s ≠ []) :
    ∃ ts' i, ts.addToken s = .ok (ts', i) ∧ ts'.tokens[i]? = some (.str s) ∧
      (∀ j < ts.tokens.length, ts'.tokens[j]? = ts.tokens[j]?) ∧
      ts'.tokens.length = ts.tokens.length + 1 ∧ SameHeader ts' ts ∧
      ts'.sequences = ts.sequences.filter (fun q => decide (q.string ≠ s)) ∧
      (SeqsInRange ts → meaning ts' = (meaning ts).filter (fun m => decide (m.1 ≠ s))) ∧
      ∃ j, ts'.findToken s = some j ∧ ts'.tokens[j]? = some (.str s) := by
  refine ⟨_, _, addToken_eq ts s hs, by simp, ?_, by simp, ⟨rfl, rfl, rfl, rfl⟩, ?_, ?_, ?_⟩
  · intro j hj
    simp [List.getElem?_append_left hj]
  · apply List.filter_congr
    intro q _
    by_cases h : q.string = s <;> simp [h]
  · intro hr
    unfold meaning
    rw [List.filter_map]
    simp only [Function.comp_def]
    have hf : ts.sequences.filter (fun q => q.string != s) =
        ts.sequences.filter (fun q => decide (q.string ≠ s)) := by
      apply List.filter_congr
      intro q _
      by_cases h : q.string = s <;> simp [h]
    rw [hf]
    apply List.map_congr_left
    intro q hq
    simp only [listed, Prod.mk.injEq, true_and]
    apply List.map_congr_left
    intro i hi
    exact List.getElem?_append_left (hr q (List.mem_filter.1 hq).1 i hi)
  · cases h : ({ ts with
        tokens := ts.tokens ++ [.str s],
        sequences := ts.sequences.filter (fun q => q.string != s) } : TokenSet).findToken s with
    | some j => exact ⟨j, rfl, (findToken_some h).1⟩
    | none =>
      rw [findToken_none] at h
      simp at h

/-- **C14**.  Adding the empty string panics. -/
theorem C14_add_empty_panics (ts : TokenSet) : ts.addToken [] = .error .assertFailed := rfl

/-- **C14**.  `find_token` returns the first token with that string, if there is one. -/
theorem C14_find_token (ts : TokenSet) (s : Bytes) :
    (∀ i, ts.findToken s = some i →
      ts.tokens[i]? = some (.str s) ∧ ∀ j < i, ts.tokens[j]? ≠ some (.str s)) ∧
    (ts.findToken s = none ↔ Token.str s ∉ ts.tokens) :=
  ⟨fun _ h => findToken_some h, findToken_none⟩

example : ([97, 98] : Bytes) ≠ [] ∧ SeqsInRange Example.bits4 := ⟨by simp, Example.bits4_inRange⟩

/-! ## C15 the bits encodings -/

/-- What C15 says about a set `ts` with `n` ext tokens and codes of length `len`. -/
def IsPositionalCode (n len : Nat) (ts : TokenSet) : Prop :=
  ts.tokens = (List.range n).map (fun i => Token.ext (UInt8.ofNat i)) ∧
  (∀ b : UInt8, ∃ q ∈ ts.sequences, q.string = [b] ∧ (∀ q' ∈ ts.sequences, q'.string = [b] → q' = q) ∧
    q.tokens.length = len ∧ (∀ d ∈ q.tokens, d < n) ∧ horner n q.tokens = b.toNat) ∧
  ts.sequences.length = 256

theorem bitsSet_positional {n len : Nat} (ty : TokenType) {code : Nat → List Nat} (p : Processing)
    (split : Bool) (h : ∀ c < 256, (code c).length = len ∧ (∀ d ∈ code c, d < n) ∧
      horner n (code c) = c) : IsPositionalCode n len (bitsSet n ty code p split) := by
  refine ⟨rfl, ?_, ?_⟩
  · intro b
    have hb : b.toNat < 256 := b.toNat_lt
    refine ⟨{ string := [b], tokens := code b.toNat }, ?_, rfl, ?_, (h _ hb).1, (h _ hb).2.1,
      (h _ hb).2.2⟩
    · simp only [bitsSet, List.mem_map, List.mem_range]
      exact ⟨b.toNat, hb, by simp⟩
    · intro q' hq' hs
      simp only [bitsSet, List.mem_map, List.mem_range] at hq'
      obtain ⟨c, hc, rfl⟩ := hq'
      simp at hs
      subst hs
      have : (UInt8.ofNat c).toNat = c := by simp; omega
      rw [this]
  · simp only [bitsSet, List.length_map, List.length_range]

/-- **C15**. -/
theorem C15_bits1 (p : Processing) (split : Bool) : ∃ ts, newBits1 p split = .ok ts ∧
    IsPositionalCode 2 8 ts ∧ ts.tokenType = .bits1 ∧ ts.processing = p ∧
      ts.splitParagraphs = split :=
  ⟨_, newBits1_eq p split, bitsSet_positional _ _ _ (by decide +kernel), rfl, rfl, rfl⟩

/-- **C15**. -/
theorem C15_bits2 (p : Processing) (split : Bool) : ∃ ts, newBits2 p split = .ok ts ∧
    IsPositionalCode 4 4 ts ∧ ts.tokenType = .bits2 ∧ ts.processing = p ∧
      ts.splitParagraphs = split :=
  ⟨_, newBits2_eq p split, bitsSet_positional _ _ _ (by decide +kernel), rfl, rfl, rfl⟩

/-- **C15**. -/
theorem C15_bits4 (p : Processing) (split : Bool) : ∃ ts, newBits4 p split = .ok ts ∧
    IsPositionalCode 16 2 ts ∧ ts.tokenType = .bits4 ∧ ts.processing = p ∧
      ts.splitParagraphs = split :=
  ⟨_, newBits4_eq p split, bitsSet_positional _ _ _ (by decide +kernel), rfl, rfl, rfl⟩

-- the code of byte 0xB2 = 178 in bits2: digits 2 3 0 2
example : horner 4 (digitLoop 3 2 4 178).reverse = 178 ∧ (digitLoop 3 2 4 178).reverse = [2, 3, 0, 2] := by
  decide +kernel

end Tokens.Props
