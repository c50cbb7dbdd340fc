import Verif.Props.Cuts

/-!
# Property C110: a local change of the data changes the counts by little

Read together with `Verif/Spec/Cuts.lean` (`PiecesUpTo`, `BytesWithin`).
-/

namespace Tokens.Props
open Tokens Spec TokenSet Batch FragmentTokenizer

set_option linter.unusedVariables false

/-- **C110** (edits).  Replace a part `v` of one sample by `v'`, whatever the sample and the other samples.
The number of output tokens grows by at most what it takes to write the new bytes and those of two tokens
or sequences one by one; it does not depend on the size of the data.  (So by exchanging the two texts it
cannot become smaller by more either.) -/
theorem C110_edit (ts : TokenSet) (hseq : SeqsInRange ts) (m k : Nat) (hm : PiecesUpTo ts m)
    (hk : BytesWithin ts k) (before after : List Bytes) (u v v' w : Bytes) (n n' : Option Nat)
    (a b : TokenStats) (ha : tokenizeFileSync ts (before ++ [u ++ v ++ w] ++ after) n = .ok a)
    (hb : tokenizeFileSync ts (before ++ [u ++ v' ++ w] ++ after) n' = .ok b) :
    b.totalTokens ≤ a.totalTokens + k * v'.length + 2 * (m * k) := by
  obtain ⟨tk, d, hn, ht, hw, _, _, ca⟩ := sync_inv hseq ha
  obtain ⟨_, d', hn', _, hw', _, _, cb⟩ := sync_inv hseq hb
  have same : ∀ x, d x .total = d' x .total := by
    intro x
    obtain ⟨ps, h1, e1⟩ := hw.seg x
    obtain ⟨qs, h2, e2⟩ := hw'.seg x
    have := longestLast_unique ht h1 h2
    subst this
    rw [e1, e2]
  have one : ∀ l : List Bytes, ∃ st, tokenizeFileSync ts l none = .ok st ∧
      st.totalTokens = workSum d l .total := by
    intro l
    obtain ⟨st, h, _, _, h4⟩ := sync_ok hn hw l none
    exact ⟨st, h, h4 .total⟩
  have e : ∀ l, workSum d' l .total = workSum d l .total := by
    intro l
    unfold workSum
    congr 1
    exact List.map_congr_left (fun x _ => (same x).symm)
  have ta : a.totalTokens = workSum d before .total + d (u ++ v ++ w) .total + workSum d after .total := by
    have := ca .total
    simpa [cnt, workSum, Nat.add_assoc] using this
  have tb : b.totalTokens = workSum d before .total + d (u ++ v' ++ w) .total + workSum d after .total := by
    have := cb .total
    rw [e] at this
    simpa [cnt, workSum, Nat.add_assoc] using this
  obtain ⟨s1, g1, t1⟩ := one [u, v, w]
  obtain ⟨s2, g2, t2⟩ := one [[u, v, w].flatten]
  obtain ⟨s3, g3, t3⟩ := one [u, v', w]
  obtain ⟨s4, g4, t4⟩ := one [[u, v', w].flatten]
  obtain ⟨s5, g5, t5⟩ := one [v']
  have c1 := (C72_cuts_cost_little ts hseq m k hm hk _ _ _ _ _ g1 g2).2
  have c2 := (C72_cuts_cost_little ts hseq m k hm hk _ _ _ _ _ g3 g4).1
  have c3 : s5.totalTokens ≤ k * v'.length := by
    obtain ⟨_, _, _, seg, h1, h2⟩ := C05_accounting ts hseq _ _ _ g5
    obtain ⟨ps, p1, p2⟩ := spells_bytes hk v'
    have p3 := (h1 v' (by simp)).2 ps p1
    rw [Nat.mul_comm] at p2
    simp only [List.map_cons, List.map_nil, List.sum_cons, List.sum_nil] at h2
    omega
  rw [t1, t2] at c1
  rw [t3, t4] at c2
  rw [t5] at c3
  simp only [workSum_cons, workSum_nil, List.flatten_cons, List.flatten_nil, List.append_nil,
    List.length_cons, List.length_nil, ← List.append_assoc] at c1 c2 c3
  rw [ta, tb]
  omega

/-- **C110** (appending).  Adding bytes at the end of a sample costs at most what it takes to write them one
by one, and saves at most what it takes to write the bytes of one token or sequence one by one. -/
theorem C110_append (ts : TokenSet) (hseq : SeqsInRange ts) (m k : Nat) (hm : PiecesUpTo ts m)
    (hk : BytesWithin ts k) (u v : Bytes) (n n' : Option Nat) (a b : TokenStats)
    (ha : tokenizeFileSync ts [u] n = .ok a) (hb : tokenizeFileSync ts [u ++ v] n' = .ok b) :
    b.totalTokens ≤ a.totalTokens + k * v.length ∧ a.totalTokens ≤ b.totalTokens + m * k := by
  obtain ⟨_, _, _, seg, h1, h2⟩ := C05_accounting ts hseq _ n a ha
  obtain ⟨_, _, _, seg', h3, h4⟩ := C05_accounting ts hseq _ n' b hb
  simp only [List.map_cons, List.map_nil, List.sum_cons, List.sum_nil, Nat.add_zero] at h2 h4
  have hu := h1 u (by simp)
  have huv := h3 (u ++ v) (by simp)
  obtain ⟨_, ht⟩ := FragmentTokenizer.ok_of_new (sync_inv hseq ha).choose_spec.choose_spec.1
  obtain ⟨ps, p1, p2⟩ := spells_bytes hk v
  rw [Nat.mul_comm] at p2
  constructor
  · have := huv.2 (seg u ++ ps) (hu.1.append p1)
    rw [h4, h2]
    have e : (output ts (seg u ++ ps)).length = (output ts (seg u)).length + (output ts ps).length := by
      simp only [output, List.flatMap_append, List.length_append]
    omega
  · obtain ⟨st, hst⟩ := sync_exists ht hseq [u, v] none
    have hb' : tokenizeFileSync ts [[u, v].flatten] n' = .ok b := by simpa using hb
    have c := (C72_cuts_cost_little ts hseq m k hm hk [u, v] none n' st b hst hb').2
    obtain ⟨_, _, _, sg, k1, k2⟩ := C05_accounting ts hseq _ none st hst
    simp only [List.map_cons, List.map_nil, List.sum_cons, List.sum_nil, Nat.add_zero] at k2
    have := hu.2 (sg u) (k1 u (by simp)).1
    simp only [List.length_cons, List.length_nil] at c
    omega

-- the hypotheses are met: "abc" becomes "adc" in the second of three samples
example : ∃ a b, SeqsInRange Example.grown ∧ PiecesUpTo Example.grown 3 ∧
    tokenizeFileSync Example.grown ([[97]] ++ [[97] ++ [98] ++ [99]] ++ [[100]]) none = .ok a ∧
    tokenizeFileSync Example.grown ([[97]] ++ [[97] ++ [100] ++ [99]] ++ [[100]]) none = .ok b := by
  obtain ⟨a, h1⟩ := sync_exists Example.grown_ok.1 Example.grown_ok.2
    ([[97]] ++ [[97] ++ [98] ++ [99]] ++ [[100]]) none
  obtain ⟨b, h2⟩ := sync_exists Example.grown_ok.1 Example.grown_ok.2
    ([[97]] ++ [[97] ++ [100] ++ [99]] ++ [[100]]) none
  exact ⟨a, b, Example.grown_ok.2, by unfold PiecesUpTo; decide +kernel, h1, h2⟩

end Tokens.Props
