import Verif.Props.OptimizeBytes

/-!
# Property C16: tokenization is lossless

Read together with `Verif/Spec/Family.lean`.
-/

namespace Tokens.Props
open Tokens Spec TokenSet OptimizeBytes

/-- **C16**.  For a set of one of the three families there is a decoder that maps the tokens written
for a text, by any segmentation, back to the text. -/
theorem C16_lossless (ts : TokenSet) (h : Family ts) : Lossless ts := family_lossless h

/-- **C16**.  Two texts (or one text) tokenized to the same tokens, by any segmentations, are
equal. -/
theorem C16_injective (ts : TokenSet) (h : Family ts) (ps qs : List Piece) (s t : Bytes)
    (hs : Spells ts ps s) (ht : Spells ts qs t) (he : tokensOut ts ps = tokensOut ts qs) : s = t := by
  obtain ⟨decode, hd⟩ := family_lossless h
  rw [← hd ps s hs, ← hd qs t ht, he]

/-- The token sets that the program can make: the constructors, adding a string that is not yet a
token, removing a token of two or more bytes, sorting, and the byte optimizers run on any statistics
for the set. -/
inductive Made : TokenSet → Prop
  | bits1 {p split ts} : newBits1 p split = .ok ts → Made ts
  | bits2 {p split ts} : newBits2 p split = .ok ts → Made ts
  | bits4 {p split ts} : newBits4 p split = .ok ts → Made ts
  | bytes {p ts} : newBytes p = .ok ts → Made ts
  | add {ts s ts' i} : Made ts → Token.str s ∉ ts.tokens → ts.addToken s = .ok (ts', i) → Made ts'
  | remove {ts idx s ts'} : Made ts → ts.tokens[idx]? = some (.str s) → 1 < s.length →
      ts.removeToken idx = .ok ts' → Made ts'
  | sort {ts ts'} : Made ts → ts.sort = .ok ts' → Made ts'
  | simple {st n ts'} : Made st.tokenSet → CountsFit st → simple st n = .ok ts' → Made ts'
  | huff {st n ts'} : Made st.tokenSet → CountsFit st → huff st n = .ok ts' → Made ts'
  | noop {st n ts'} : Made st.tokenSet → noop st n = .ok ts' → Made ts'

/-- **C16**.  Every set that the program can make is in one of the families. -/
theorem C16_made_family (ts : TokenSet) (h : Made ts) : Family ts := by
  induction h with
  | bits1 h =>
    rw [newBits1_eq] at h; cases h
    exact .inl (bitsSet_family (len := 8) (by decide) _ _ _ rfl (by decide +kernel))
  | bits2 h =>
    rw [newBits2_eq] at h; cases h
    exact .inl (bitsSet_family (len := 4) (by decide) _ _ _ rfl (by decide +kernel))
  | bits4 h =>
    rw [newBits4_eq] at h; cases h
    exact .inl (bitsSet_family (len := 2) (by decide) _ _ _ rfl (by decide +kernel))
  | bytes h =>
    rw [newBytes_eq] at h; cases h
    exact .inr (.inl (bytesSet_family _))
  | add _ hn ha ih => exact family_of ih (usable_add (Tokens.Family.usable ih) hn ha) (shrinks_add (Tokens.Family.usable ih).inRange ha)
  | remove _ ht hl hr ih =>
    exact family_of ih (usable_remove (Tokens.Family.usable ih) ht hl hr) (shrinks_remove (Tokens.Family.usable ih).inRange hr)
  | sort _ hs ih =>
    obtain ⟨h1, _, _, h4⟩ := sort_sameSet hs
    exact family_of ih (usable_sameSet (Tokens.Family.usable ih) h1 h4) (shrinks_sameSet h1)
  | @simple st n ts' _ hc hs ih =>
    have hb : BitsFamily st.tokenSet := by
      rcases ih with ih | ih | ih
      · exact ih
      · have hfr : freshBits st.tokenSet = .error .panic := by unfold freshBits; rw [ih.type]
        obtain ⟨a, ha, a', ha', _⟩ := counts_eq ih.accepted hc
        unfold OptimizeBytes.simple at hs
        cases h1 : subR n st.tokenSet.nExt with
        | error e => rw [h1] at hs; cases hs
        | ok k =>
          rw [h1, R.ok_bind, ha, R.ok_bind, ha', R.ok_bind] at hs
          cases h2 : prefixR (byCount a') k with
          | error e => rw [h2] at hs; cases hs
          | ok l => rw [h2, R.ok_bind, hfr] at hs; cases hs
      · have hfr : freshBits st.tokenSet = .error .panic := by unfold freshBits; rw [ih.type]
        obtain ⟨a, ha, a', ha', _⟩ := counts_eq ih.accepted hc
        unfold OptimizeBytes.simple at hs
        cases h1 : subR n st.tokenSet.nExt with
        | error e => rw [h1] at hs; cases hs
        | ok k =>
          rw [h1, R.ok_bind, ha, R.ok_bind, ha', R.ok_bind] at hs
          cases h2 : prefixR (byCount a') k with
          | error e => rw [h2] at hs; cases hs
          | ok l => rw [h2, R.ok_bind, hfr] at hs; cases hs
    by_cases h1 : n < st.tokenSet.nExt
    · rw [simple_small h1] at hs; cases hs
    · obtain ⟨k, rfl⟩ : ∃ k, n = st.tokenSet.nExt + k := ⟨n - st.tokenSet.nExt, by omega⟩
      by_cases h2 : 256 < k
      · rw [simple_big hb hc h2] at hs; cases hs
      · obtain ⟨ts'', e1, e2, _⟩ := simple_spec hb hc (k := k) (by omega)
        have : ts' = ts'' := Except.ok.inj (hs.symm.trans e1)
        rw [this]; exact .inl e2
  | @huff st n ts' _ hc hs ih =>
    by_cases hn : n < 3
    · obtain ⟨e, he⟩ := huff_small st hn
      rw [he] at hs; cases hs
    · have h1 : ∀ q ∈ st.tokenSet.sequences, q.string.length = 1 := by
        rcases ih with ih | ih | ih
        · intro q hq
          obtain ⟨_, _, hcodes⟩ := ih.params
          obtain ⟨b, ds, e, _⟩ := hcodes (q.string, listed st.tokenSet q) (List.mem_map.2 ⟨q, hq, rfl⟩)
          simp only [Prod.mk.injEq] at e
          rw [e.1]; rfl
        · rw [ih.noSeq]; simp
        · exact huff_single ih
      obtain ⟨ts'', e1, e2, _⟩ := huff_spec (Tokens.Family.usable ih).accepted hc h1 (n := n) (by omega)
      have : ts' = ts'' := Except.ok.inj (hs.symm.trans e1)
      rw [this]; exact .inr (.inr e2)
  | noop _ hs ih => cases hs; exact ih

/-- **C16**.  Every set that the program can make is lossless. -/
theorem C16_made_lossless (ts : TokenSet) (h : Made ts) : Lossless ts :=
  family_lossless (C16_made_family ts h)

-- a byteshuff set made from the bits4 set with added tokens; and two different segmentations of
-- the same text in `grown`
example : ∃ ts', huff grownStats 40 = .ok ts' ∧ HuffFamily ts' ∧ Lossless ts' ∧ ts'.tokens.length = 43 := by
  obtain ⟨ts', h1, h2, h3, h4, h5, h6⟩ := C31_huff grownStats 40 grown_bits.accepted grownStats_fit (by
    intro q hq
    obtain ⟨_, _, hcodes⟩ := grown_bits.params
    obtain ⟨b, ds, e, _⟩ := hcodes (q.string, listed Example.grown q) (List.mem_map.2 ⟨q, hq, rfl⟩)
    simp only [Prod.mk.injEq] at e
    rw [e.1]; rfl) (by decide)
  refine ⟨ts', h1, h2, family_lossless (.inr (.inr h2)), ?_⟩
  rw [h6]
  show min 40 258 + (longTokens Example.grown).length = 43
  rw [grown_lists.2]; rfl

example : Made Example.bits4 ∧ Spells Example.grown [.tok 18] [97, 98, 99] := by
  refine ⟨.bits4 Example.bits4_new, ?_⟩
  exact .cons (s := [97, 98, 99]) (t := []) rfl .nil

-- a set outside the families that is not lossless: two sequences that list the same tokens
def ambiguous : TokenSet :=
  { nExt := 1, tokenType := .bytesHuff, processing := .raw, splitParagraphs := true,
    tokens := [.ext 0, .str [99]],
    sequences := [{ string := [97], tokens := [1, 0] }, { string := [98], tokens := [1, 0] }] }

example : ¬ Lossless ambiguous := by
  rintro ⟨decode, h⟩
  have h1 := h [.seq 0] [97] (.cons (s := [97]) (t := []) rfl .nil)
  have h2 := h [.seq 1] [98] (.cons (s := [98]) (t := []) rfl .nil)
  rw [show tokensOut ambiguous [Piece.seq 1] = tokensOut ambiguous [Piece.seq 0] from rfl, h1] at h2
  simp at h2

end Tokens.Props
