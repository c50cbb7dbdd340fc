import Verif.Proofs.Machine
import Verif.Proofs.Bpe
import Verif.Props.Batch

/-!
# Property C51: the 64-bit counters

All other theorems count with natural numbers.  These show that the program, which counts with
`u64`, computes the same, in builds with and without overflow checks.
-/

namespace Tokens.Props
open Tokens Spec

/-- **C51** (sizes).  Tokenizing `N` bytes with a set whose sequences list at most `K` tokens: the
scanned bytes are `N`, no token count exceeds `K * N`, and no sequence or pair count exceeds `N`. -/
theorem C51_counters_bounded (ts : TokenSet) (hseq : SeqsInRange ts) (K : Nat) (hK1 : 1 ≤ K)
    (hK : ∀ q ∈ ts.sequences, q.tokens.length ≤ K) (sampler : SamplerData) (n : Option Nat)
    (nthreads : Nat) (hN : 0 < nthreads) (st : TokenStats)
    (h : Batch.TokenizeFile ts sampler n nthreads st) (N : Nat)
    (hsum : N = (sampler.samples.map List.length).sum) :
    st.scannedBytes = N ∧ st.totalTokens ≤ K * N ∧ (∀ c ∈ st.tokenCounts, c ≤ K * N) ∧
      (∀ c ∈ st.seqCounts, c ≤ N) ∧ ∀ c ∈ st.pairCounts, c ≤ N := by
  subst hsum
  obtain ⟨tk, d, h1, h2, h3, h4, h5, h6⟩ :=
    sync_inv hseq (C07_tokenize_file ts hseq sampler n nthreads hN st h)
  have hle : ∀ ix, cnt st ix ≤ Machine.limit K (sampler.samples.map List.length).sum ix := fun ix => by
    rw [h6]; exact Machine.workSum_le h3 h2 hK1 hK _ ix
  have hmem : ∀ (l : List Nat) (B : Nat), (∀ i, l.getD i 0 ≤ B) → ∀ c ∈ l, c ≤ B := by
    intro l B hl c hc
    obtain ⟨i, hi⟩ := List.mem_iff_getElem?.1 hc
    have := hl i
    simpa [List.getD_eq_getElem?_getD, hi] using this
  refine ⟨?_, hle .total, hmem _ _ (fun i => hle (.tok i)), hmem _ _ (fun i => hle (.seq i)),
    hmem _ _ (fun i => hle (.pair i))⟩
  rw [← Machine.workSum_scanned h3]
  exact h6 .scanned

/-- **C51** (sequential).  With `u64` addition, checked or wrapping, `tokenize_file_sync` gives the
same result as with natural numbers, for all data of fewer than `2^64 / K` bytes. -/
theorem C51_sync_no_overflow (add : Machine.Adder)
    (hadd : add = Machine.checkedAdd ∨ add = Machine.wrappingAdd) (ts : TokenSet)
    (hseq : SeqsInRange ts) (K : Nat) (hK1 : 1 ≤ K)
    (hK : ∀ q ∈ ts.sequences, q.tokens.length ≤ K) (samples : List Bytes)
    (hfit : K * ((samples.map List.length).sum + 1) < 2 ^ 64) (n : Option Nat) :
    Machine.tokenizeFileSync add ts samples n = Batch.tokenizeFileSync ts samples n := by
  have ha : Machine.Exact add := by
    rcases hadd with rfl | rfl
    · exact Machine.checked_exact
    · exact Machine.wrapping_exact
  unfold Machine.tokenizeFileSync Batch.tokenizeFileSync
  cases hn : FragmentTokenizer.new ts with
  | error e => rfl
  | ok tk =>
    obtain ⟨hk, ht⟩ := FragmentTokenizer.ok_of_new hn
    obtain ⟨d, hw⟩ := exists_work hn hseq
    simp only [R.ok_bind]
    refine Machine.processAll_same ha hw hk ht hseq hK1 hK samples _ (shaped_new ts n) ?_ ?_
    · intro s hs
      have h1 : s.length ≤ (samples.map List.length).sum :=
        Machine.length_le_sum hs
      have := Nat.mul_le_mul_left K (Nat.add_le_add_right h1 1)
      omega
    · intro ix
      have h1 := Machine.workSum_le hw ht hK1 hK samples ix
      have h2 := Machine.limit_le (len := (samples.map List.length).sum) hK1 ix
      rw [Nat.mul_add] at hfit
      rw [cnt_new]
      omega

/-- **C51** (parallel).  With `u64` addition the parallel path goes through exactly the same states:
no addition of any thread overflows in any schedule. -/
theorem C51_parallel_no_overflow (add : Machine.Adder)
    (hadd : add = Machine.checkedAdd ∨ add = Machine.wrappingAdd) (ts : TokenSet)
    (tk : FragmentTokenizer) (hnew : FragmentTokenizer.new ts = .ok tk)
    (hseq : SeqsInRange ts) (K : Nat) (hK1 : 1 ≤ K)
    (hK : ∀ q ∈ ts.sequences, q.tokens.length ≤ K) (samples : List Bytes) (hne : ∀ x ∈ samples, x ≠ [])
    (hfit : K * ((samples.map List.length).sum + 1) < 2 ^ 64) (n : Option Nat) (nthreads : Nat)
    (s : Batch.PState) :
    Machine.PSteps add tk (Batch.pinit ts samples n nthreads) s ↔
      Batch.PSteps tk (Batch.pinit ts samples n nthreads) s := by
  have ha : Machine.Exact add := by
    rcases hadd with rfl | rfl
    · exact Machine.checked_exact
    · exact Machine.wrapping_exact
  obtain ⟨hk, ht⟩ := FragmentTokenizer.ok_of_new hnew
  obtain ⟨d, hw⟩ := exists_work hnew hseq
  exact Machine.steps_same ha hw hk ht hseq hK1 hK hne hfit

/-- **C51** (`tokenize_file`).  The results it may return are the same. -/
theorem C51_tokenize_file (add : Machine.Adder)
    (hadd : add = Machine.checkedAdd ∨ add = Machine.wrappingAdd) (ts : TokenSet)
    (hseq : SeqsInRange ts) (K : Nat) (hK1 : 1 ≤ K)
    (hK : ∀ q ∈ ts.sequences, q.tokens.length ≤ K) (sampler : SamplerData)
    (hne : ∀ x ∈ sampler.samples, x ≠ [])
    (hfit : K * ((sampler.samples.map List.length).sum + 1) < 2 ^ 64) (n : Option Nat) (nthreads : Nat)
    (st : TokenStats) :
    Machine.TokenizeFile add ts sampler n nthreads st ↔ Batch.TokenizeFile ts sampler n nthreads st := by
  constructor
  · intro h
    cases h with
    | sync h hs => exact .sync h (by rw [← C51_sync_no_overflow add hadd ts hseq K hK1 hK _ hfit]; exact hs)
    | par h hn hs hr =>
      exact .par h hn ((C51_parallel_no_overflow add hadd ts _ hn hseq K hK1 hK _ hne hfit _ _ _).1 hs) hr
  · intro h
    cases h with
    | sync h hs => exact .sync h (by rw [C51_sync_no_overflow add hadd ts hseq K hK1 hK _ hfit]; exact hs)
    | par h hn hs hr =>
      exact .par h hn ((C51_parallel_no_overflow add hadd ts _ hn hseq K hK1 hK _ hne hfit _ _ _).2 hs) hr

-- the hypotheses are met: a set with long tokens and sequences of two tokens, and some data
example : SeqsInRange Example.grown ∧ (∀ q ∈ Example.grown.sequences, q.tokens.length ≤ 2) ∧
    (∃ tk, FragmentTokenizer.new Example.grown = .ok tk) ∧
    2 * ((([[97, 98, 99], [100]] : List Bytes).map List.length).sum + 1) < 2 ^ 64 := by
  obtain ⟨tk, h1, _⟩ := FragmentTokenizer.new_ok_of Example.grown_ok.1
  refine ⟨Example.grown_ok.2, ?_, ⟨tk, h1⟩, by decide⟩
  intro q hq
  simp only [Example.grown, Example.bits4, TokenSet.bitsSet, List.mem_filter, List.mem_map] at hq
  obtain ⟨⟨c, _, rfl⟩, _⟩ := hq
  exact Nat.le_refl _

-- the bound is needed: the addition of a build can differ from that of natural numbers
example : Machine.wrappingAdd (2 ^ 64 - 1) 1 = .ok 0 ∧
    Machine.checkedAdd (2 ^ 64 - 1) 1 = .error .overflow := ⟨rfl, rfl⟩

end Tokens.Props
