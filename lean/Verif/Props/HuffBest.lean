import Verif.Proofs.Huff6
import Verif.Props.OptimizeBytes

/-!
# Property C67: the byteshuff byte optimizer takes the cheapest of its candidates
-/

namespace Tokens.Props
open Tokens Spec OptimizeBytes

/-- The counts that the candidates are made for: every byte once more than it was seen. -/
def smoothedCounts (st : TokenStats) : Counts := allBytes.map (fun b => (b, byteUses st b + 1))

theorem smoothedTotal_eq (ts : TokenSet) (st : TokenStats) :
    smoothedTotal ts st = (allBytes.map (fun b => byteCost ts b * (byteUses st b + 1))).sum := by
  unfold smoothedTotal sumTo allBytes
  simp [List.map_map, Function.comp_def]

/-- **C67**.  For every number `k` of ext tokens from 2 to 10 (as far as a byte token is left), the
candidate made for `k` ext tokens needs at least as many output tokens for the bytes as the set that
`HuffOptimizer::optimize_bytes` returns, each byte being counted once more than it was seen; and the set
returned is one of the candidates, with the long tokens added. -/
theorem C67_cheapest_candidate (st : TokenStats) (n : Nat) (h : Tokenizable st.tokenSet) (hc : CountsFit st)
    (hs : ∀ q ∈ st.tokenSet.sequences, q.string.length = 1) (hn : 3 ≤ n)
    (ts' : TokenSet) (hok : huff st n = .ok ts') :
    (∀ k cand, 2 ≤ k → k ≤ 10 → k < n →
      bytesTokenset (smoothedCounts st) (n - k) k st.tokenSet.processing = .ok cand →
      smoothedTotal ts' st ≤ smoothedTotal cand st) ∧
    ∃ k cand, 2 ≤ k ∧ k ≤ 10 ∧ k < n ∧
      bytesTokenset (smoothedCounts st) (n - k) k st.tokenSet.processing = .ok cand ∧
      cand.addTokens (longTokens st.tokenSet) = .ok ts' ∧ smoothedTotal ts' st = smoothedTotal cand st := by
  obtain ⟨y, k, hy, k1, k2, _, hbest, he⟩ := huff_best h hc hs hn
  have hadd : y.1.addTokens (longTokens st.tokenSet) = .ok ts' := he.symm.trans hok
  have hlong : ∀ s ∈ longTokens st.tokenSet, 1 < s.length := fun s hs => (mem_longTokens.1 hs).2
  have e : smoothedTotal ts' st = smoothedTotal y.1 st := by
    rw [smoothedTotal_eq, smoothedTotal_eq]
    refine congrArg List.sum (List.map_congr_left (fun b _ => ?_))
    rw [byteCost_long hlong hadd]
  refine ⟨?_, k, y.1, k1, by omega, by omega, hy.made, hadd, e⟩
  intro k' cand h1 h2 h3 hm
  obtain ⟨x, hx⟩ := cand_exists (u := fun b => byteUses st b + 1) (fun b => by omega) (n := n) (k := k')
    st.tokenSet.processing (by omega) h3 (by omega)
  have e1 : x.1 = cand := Except.ok.inj (hx.made.symm.trans hm)
  have h4 := hbest k' h1 (by omega) x hx
  rw [e, smoothedTotal_eq, smoothedTotal_eq, ← e1, ← cand_cost hx, ← cand_cost hy]
  exact h4

-- the hypotheses are met, and there is a candidate to compare with
example : ∃ ts' cand, huff grownStats 40 = .ok ts' ∧
    bytesTokenset (smoothedCounts grownStats) (40 - 7) 7 grownStats.tokenSet.processing = .ok cand ∧
    smoothedTotal ts' grownStats ≤ smoothedTotal cand grownStats := by
  have hs : ∀ q ∈ grownStats.tokenSet.sequences, q.string.length = 1 := by
    intro q hq
    obtain ⟨_, _, hcodes⟩ := grown_bits.params
    obtain ⟨b, ds, e, _⟩ := hcodes (q.string, listed Example.grown q) (List.mem_map.2 ⟨q, hq, rfl⟩)
    simp only [Prod.mk.injEq] at e
    rw [e.1]; rfl
  obtain ⟨ts', h1, _⟩ := C31_huff grownStats 40 grown_bits.accepted grownStats_fit hs (by decide)
  obtain ⟨x, hx⟩ := cand_exists (u := fun b => byteUses grownStats b + 1) (fun b => by omega) (n := 40) (k := 7)
    grownStats.tokenSet.processing (by decide) (by decide) (by decide)
  exact ⟨ts', x.1, h1, hx.made, (C67_cheapest_candidate grownStats 40 grown_bits.accepted grownStats_fit hs
    (by decide) ts' h1).1 7 x.1 (by decide) (by decide) (by decide) hx.made⟩

/-- **C67** (what the candidates are not).  The comment of `optimize_splits` says that it finds an optimal
split.  It merges greedily, and there are counts for which other groups have more frequent leaders, so
that fewer output tokens would be needed: five bytes in four groups. -/
theorem C67_split_not_optimal : ∃ (counts : Counts) (parts : Nat) (splits : List CharsSplit)
    (groups : List (List (UInt8 × Nat))), counts.Pairwise (fun a b => a.1 < b.1) ∧
    optimizeSplits counts parts = .ok splits ∧ IsSplit counts parts groups ∧
    (splits.map (·.topCount)).sum < leaderCount groups :=
  ⟨[(97, 100), (98, 1), (99, 100), (100, 2), (101, 2)], 4, _,
    [[(97, 100), (98, 1)], [(99, 100)], [(100, 2)], [(101, 2)]], by decide, rfl,
    ⟨rfl, rfl, by decide⟩, by decide⟩

end Tokens.Props
