import Verif.Proofs.Cuts
import Verif.Props.Optimize

/-!
# Properties C72, C73: what cutting the data costs, and how good a tokenization can be

Read together with `Verif/Spec/Cuts.lean`.  `tokenizeFileSync ts samples n = .ok st`: tokenizing the
samples gives the statistics `st` (by C07 also in parallel).
-/

namespace Tokens.Props
open Tokens Spec TokenSet Batch

set_option linter.unusedVariables false

/-- **C72**.  Cutting the data into samples never helps, and each cut costs a limited number of tokens:
at most what it takes to write the bytes of one token or sequence one by one. -/
theorem C72_cuts_cost_little (ts : TokenSet) (hseq : SeqsInRange ts) (m k : Nat) (hm : PiecesUpTo ts m)
    (hk : BytesWithin ts k) (samples : List Bytes) (n n' : Option Nat) (st whole : TokenStats)
    (h : tokenizeFileSync ts samples n = .ok st)
    (hw : tokenizeFileSync ts [samples.flatten] n' = .ok whole) :
    whole.totalTokens ≤ st.totalTokens ∧
      st.totalTokens ≤ whole.totalTokens + (samples.length - 1) * (m * k) := by
  obtain ⟨_, _, _, seg, h1, h2⟩ := C05_accounting ts hseq samples n st h
  obtain ⟨_, _, _, seg', h3, h4⟩ := C05_accounting ts hseq _ n' whole hw
  have ho := h3 samples.flatten (by simp)
  have h4' : whole.totalTokens = (output ts (seg' samples.flatten)).length := by simpa using h4
  rw [h2, h4']
  obtain ⟨j1, j2⟩ := join_spells seg samples h1
  refine ⟨?_, cuts_spells hm hk seg samples h1 _ ho.1⟩
  rw [← j2]
  exact ho.2 _ j1

/-- **C72**.  So two ways to cut the same data give totals that differ by at most that much for each cut:
for chunk sizes of a megabyte or more it does not matter how the data is read. -/
theorem C72_how_it_is_cut (ts : TokenSet) (hseq : SeqsInRange ts) (m k : Nat) (hm : PiecesUpTo ts m)
    (hk : BytesWithin ts k) (xs ys : List Bytes) (hsame : xs.flatten = ys.flatten) (n n' : Option Nat)
    (a b : TokenStats) (ha : tokenizeFileSync ts xs n = .ok a) (hb : tokenizeFileSync ts ys n' = .ok b) :
    a.totalTokens ≤ b.totalTokens + (xs.length - 1) * (m * k) := by
  have hnew : ∃ tk, FragmentTokenizer.new ts = .ok tk := by
    unfold tokenizeFileSync at ha
    cases hn : FragmentTokenizer.new ts with
    | error e => rw [hn] at ha; simp [bind, Except.bind] at ha
    | ok tk => exact ⟨tk, rfl⟩
  obtain ⟨tk, hn⟩ := hnew
  obtain ⟨_, ht⟩ := FragmentTokenizer.ok_of_new hn
  obtain ⟨whole, hw⟩ := sync_exists ht hseq [xs.flatten] none
  have h1 := (C72_cuts_cost_little ts hseq m k hm hk xs n none a whole ha hw).2
  rw [hsame] at hw
  have h2 := (C72_cuts_cost_little ts hseq m k hm hk ys n' none b whole hb hw).1
  omega

/-- **C73**.  Limits of the compression: never more than `k` tokens for a byte, never more than `m` bytes
in a token. -/
theorem C73_bounds (ts : TokenSet) (hseq : SeqsInRange ts) (m k : Nat) (hm : PiecesUpTo ts m)
    (hk : BytesWithin ts k) (hne : ∀ q ∈ ts.sequences, q.tokens ≠ []) (samples : List Bytes)
    (n : Option Nat) (st : TokenStats) (h : tokenizeFileSync ts samples n = .ok st) :
    st.totalTokens ≤ k * st.scannedBytes ∧ st.scannedBytes ≤ m * st.totalTokens := by
  obtain ⟨_, h0, _, seg, h1, h2⟩ := C05_accounting ts hseq samples n st h
  obtain ⟨j1, j2⟩ := join_spells seg samples h1
  have hlen : st.scannedBytes = samples.flatten.length := by rw [h0, List.length_flatten]
  constructor
  · rw [h2, h0]
    clear h0 h2 j1 j2 hlen h
    induction samples with
    | nil => simp
    | cons x xs ih =>
      have := ih (fun y hy => h1 y (List.mem_cons_of_mem _ hy))
      obtain ⟨ps, g1, g2⟩ := spells_bytes hk x
      have g3 := (h1 x (by simp)).2 ps g1
      rw [List.map_cons, List.sum_cons, List.map_cons, List.sum_cons, Nat.mul_add]
      rw [Nat.mul_comm] at g2
      omega
  · rw [hlen, h2, ← j2]
    exact spells_length_le hm hne j1

/-- **C73**.  For the sets that the program makes: tokens for a byte are at most 8, 4, 2, 1 or 256, by
type (bits1, bits2, bits4, bytes, byteshuff).  So a bytes set never makes the data longer. -/
theorem C73_by_type (ts : TokenSet) (hf : Family ts) (m : Nat) (hm : PiecesUpTo ts m) (samples : List Bytes)
    (n : Option Nat) (st : TokenStats) (h : tokenizeFileSync ts samples n = .ok st) :
    st.totalTokens ≤ tokensPerByte ts.tokenType * st.scannedBytes ∧ st.scannedBytes ≤ m * st.totalTokens := by
  refine C73_bounds ts (Tokens.Family.usable hf).inRange m _ hm (family_bytesWithin hf) ?_ samples n st h
  intro q hq h0
  have := family_seqLen hf q hq
  rw [h0] at this
  simp at this

-- the hypotheses are met: four-bit tokens, "ab" and others added, no piece longer than 3 bytes
example : ∃ st whole, SeqsInRange Example.grown ∧ PiecesUpTo Example.grown 3 ∧ BytesWithin Example.grown 2 ∧
    tokenizeFileSync Example.grown [[97], [98, 99], [100]] none = .ok st ∧
    tokenizeFileSync Example.grown [[97, 98, 99, 100]] none = .ok whole := by
  obtain ⟨st, h1⟩ := sync_exists Example.grown_ok.1 Example.grown_ok.2 [[97], [98, 99], [100]] none
  obtain ⟨whole, h2⟩ := sync_exists Example.grown_ok.1 Example.grown_ok.2 [[97, 98, 99, 100]] none
  refine ⟨st, whole, Example.grown_ok.2, ?_, ?_, h1, h2⟩
  · unfold PiecesUpTo; decide +kernel
  · refine ⟨by decide, ?_⟩
    intro b
    have := Example.grown_ok.1.bytes b
    unfold pieceStrings at this
    rcases List.mem_append.1 this with h | h
    · exact .inl h
    · obtain ⟨q, h1, h2⟩ := List.mem_map.1 h
      exact .inr ⟨q, h1, h2, (by decide +kernel : ∀ q ∈ Example.grown.sequences, q.tokens.length ≤ 2) q h1⟩

end Tokens.Props
