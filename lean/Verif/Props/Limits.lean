import Verif.Proofs.Limits
import Verif.Props.CodeLength
import Verif.Props.Family
import Verif.Props.Tokenizer

/-!
# Property C119: what no token set can do

Read together with `Verif/Spec/Coding.lean`.
-/

namespace Tokens.Props
open Tokens Spec TokenSet OptimizeBytes FragmentTokenizer

/-- **C119**.  Fewer than `n ^ m` different texts are tokenized to fewer than `m` tokens, `n` being the number of
tokens of the set. -/
theorem C119_few_short (ts : TokenSet) (h : Family ts) (tk : FragmentTokenizer)
    (hnew : FragmentTokenizer.new ts = .ok tk) (m : Nat) (xs : List Bytes) (hnd : xs.Nodup)
    (hshort : ∀ x ∈ xs, ∃ st', processSlice tk x (TokenStats.new ts none) = .ok st' ∧ st'.totalTokens < m) :
    xs.length < ts.tokens.length ^ m := by
  have hu := Tokens.Family.usable h
  obtain ⟨code, hcode, _⟩ := byte_code hu.accepted hu.inRange (family_lossless h)
  have h2 := two_symbols hcode
  have hex : ∀ x, ∃ l : List (Fin ts.tokens.length), x ∈ xs →
      l.length < m ∧ ∃ ps, Spells ts ps x ∧ l.map Fin.val = output ts ps := by
    intro x
    by_cases hx : x ∈ xs
    · obtain ⟨st', hrun, hlt⟩ := hshort x hx
      obtain ⟨⟨ps, hps, ht⟩, _⟩ := C01_tokenization_is_optimal ts tk hnew hu.inRange x _ st' (shaped_new ts none) hrun
      obtain ⟨l, hl⟩ := lift_fin _ (spells_output_lt hu.inRange hps)
      refine ⟨l, fun _ => ⟨?_, ps, hps, hl⟩⟩
      have e : l.length = (output ts ps).length := by rw [← hl, List.length_map]
      have e0 : (TokenStats.new ts none).totalTokens = 0 := rfl
      omega
    · exact ⟨[], fun hc => absurd hc hx⟩
  choose f hf using hex
  have hinj : ∀ x ∈ xs, ∀ y ∈ xs, f x = f y → x = y := by
    intro x hx y hy e
    obtain ⟨_, ps, h1, h2⟩ := hf x hx
    obtain ⟨_, qs, h3, h4⟩ := hf y hy
    refine C16_injective ts h ps qs x y h1 h3 ?_
    unfold tokensOut
    rw [← h2, ← h4, e]
  have := few_lists h2 (xs.map f) (List.Nodup.map_on hinj hnd) (by
    intro l hl
    obtain ⟨x, hx, rfl⟩ := List.mem_map.1 hl
    exact (hf x hx).1)
  rwa [List.length_map] at this

/-- **C119**.  No set compresses all texts: if `n ^ m ≤ 256 ^ len`, some text of `len` bytes is tokenized to `m`
tokens or more. -/
theorem C119_long_output (ts : TokenSet) (h : Family ts) (tk : FragmentTokenizer)
    (hnew : FragmentTokenizer.new ts = .ok tk) (m len : Nat) (hm : ts.tokens.length ^ m ≤ 256 ^ len) :
    ∃ x : Bytes, x.length = len ∧
      ∃ st', processSlice tk x (TokenStats.new ts none) = .ok st' ∧ m ≤ st'.totalTokens := by
  by_contra hno
  have := C119_few_short ts h tk hnew m (allTexts len) (allTexts_nodup len) (by
    intro x hx
    obtain ⟨st', hrun⟩ := C03_processSlice_never_panics ts tk hnew (Tokens.Family.usable h).inRange x _ (shaped_new ts none)
    refine ⟨st', hrun, ?_⟩
    by_contra hc
    exact hno ⟨x, mem_allTexts.1 hx, st', hrun, by omega⟩)
  rw [allTexts_length] at this
  omega

/-- **C119**.  The codes of the bytes cannot beat the entropy: however often the bytes occur, the output tokens
written for them, each worth `log2` of the number of tokens, are at least their entropy in bits. -/
theorem C119_entropy (ts : TokenSet) (h : Family ts) (uses : UInt8 → Nat) :
    entropyBits uses ≤
      ((allBytes.map (fun b => byteCost ts b * uses b)).sum : Nat) * Real.logb 2 ts.tokens.length := by
  have hu := Tokens.Family.usable h
  obtain ⟨code, hcode, hlen⟩ := byte_code hu.accepted hu.inRange (family_lossless h)
  have := entropy_le_code (by have := two_symbols hcode; omega) hcode uses
  unfold codeTotal at this
  simpa only [hlen] using this

/-- **C119**.  How far from the best the byteshuff optimizer can be: compared with any readable code of the bytes
with `k` symbols, it needs at most two output tokens more for each byte, and `log k / log (4/3)` times as many
tokens (each byte counted once more than it was seen). -/
theorem C119_near_best (st : TokenStats) (n : Nat) (h : Tokenizable st.tokenSet) (hc : CountsFit st)
    (hs : ∀ q ∈ st.tokenSet.sequences, q.string.length = 1) (hn : 3 ≤ n)
    (ts' : TokenSet) (hok : huff st n = .ok ts') (k : Nat) (code : UInt8 → List (Fin k)) (hcode : ReadableCode code) :
    (smoothedTotal ts' st : ℝ) ≤ 2 * smoothedUses st +
      (Real.log k / Real.log (4 / 3)) * codeTotal code (fun b => byteUses st b + 1) := by
  have h1 := C88_entropy st n h hc hs hn ts' hok
  have h2 := entropy_le_code (by have := two_symbols hcode; omega) hcode (fun b => byteUses st b + 1)
  unfold entropyBits at h2
  rw [← smoothedUses_eq] at h2
  have hl : (0 : ℝ) < Real.log 2 := Real.log_pos (by norm_num)
  have hl' : (0 : ℝ) < Real.log (4 / 3) := Real.log_pos (by norm_num)
  have h3 := mul_le_mul_of_nonneg_left h2 (div_pos hl hl').le
  have e : Real.log 2 / Real.log (4 / 3) * ((codeTotal code (fun b => byteUses st b + 1) : ℝ) * Real.logb 2 k) =
      (Real.log k / Real.log (4 / 3)) * codeTotal code (fun b => byteUses st b + 1) := by
    generalize (codeTotal code (fun b => byteUses st b + 1) : ℝ) = c
    unfold Real.logb
    field_simp
  rw [e] at h3
  linarith

-- the hypotheses are met: a grown bits set, with 20 tokens
example : ∃ x : Bytes, x.length = 55 ∧ ∃ tk st', FragmentTokenizer.new Example.grown = .ok tk ∧
    processSlice tk x (TokenStats.new Example.grown none) = .ok st' ∧ 100 ≤ st'.totalTokens := by
  obtain ⟨tk, hnew⟩ := (C03_new_succeeds_iff Example.grown).2
    ⟨grown_bits.accepted.nodup, grown_bits.accepted.nonempty, grown_bits.accepted.bytes⟩
  obtain ⟨x, h1, st', h2, h3⟩ := C119_long_output Example.grown (.inl grown_bits) tk hnew 100 55 (by
    have : Example.grown.tokens.length = 20 := by decide
    rw [this]; norm_num)
  exact ⟨x, h1, tk, st', hnew, h2, h3⟩

-- the codes of that set, which has 20 tokens, compared with what the byteshuff optimizer makes for 40 tokens
example : ∃ (ts' : TokenSet) (code : UInt8 → List (Fin Example.grown.tokens.length)), huff grownStats 40 = .ok ts' ∧
    ReadableCode code ∧ (∀ b, (code b).length = byteCost Example.grown b) ∧
    (smoothedTotal ts' grownStats : ℝ) ≤ 2 * smoothedUses grownStats +
      (Real.log Example.grown.tokens.length / Real.log (4 / 3)) * codeTotal code (fun b => byteUses grownStats b + 1) := by
  have hs : ∀ q ∈ grownStats.tokenSet.sequences, q.string.length = 1 := by
    intro q hq
    obtain ⟨_, _, hcodes⟩ := grown_bits.params
    obtain ⟨b, ds, e, _⟩ := hcodes (q.string, listed Example.grown q) (List.mem_map.2 ⟨q, hq, rfl⟩)
    simp only [Prod.mk.injEq] at e
    rw [e.1]; rfl
  obtain ⟨ts', h1, _⟩ := C31_huff grownStats 40 grown_bits.accepted grownStats_fit hs (by decide)
  obtain ⟨code, h2, h3⟩ := byte_code grown_bits.accepted grown_bits.inRange (family_lossless (.inl grown_bits))
  exact ⟨ts', code, h1, h2, h3, C119_near_best grownStats 40 grown_bits.accepted grownStats_fit hs (by decide) ts' h1 _
    code h2⟩

end Tokens.Props
