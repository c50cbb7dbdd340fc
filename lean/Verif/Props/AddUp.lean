import Verif.Proofs.AddUp
import Verif.Props.Batch
import Verif.Proofs.Start
import Verif.Proofs.Family

/-!
# C132: the counters agree with each other

`AddUp` (`Verif/Spec/AddUp.lean`) says what the counters of one tokenization have to do with each other.
-/

namespace Tokens.Props
open Tokens Spec Batch FragmentTokenizer TokenSet

theorem counts_add_up {ts : TokenSet} (hseq : SeqsInRange ts) {samples : List Bytes}
    {n : Option Nat} {st : TokenStats} (h : tokenizeFileSync ts samples n = .ok st) :
    Shaped ts st ∧ AddUp samples st := by
  cases hnew : FragmentTokenizer.new ts with
  | error e => unfold tokenizeFileSync at h; rw [hnew] at h; simp [bind, Except.bind] at h
  | ok tk =>
  obtain ⟨_, ht⟩ := ok_of_new hnew
  obtain ⟨d, hw⟩ := exists_work hnew hseq
  obtain ⟨st', h1, h2, _, h3⟩ := sync_ok hnew hw samples n
  cases Except.ok.inj (h.symm.trans h1)
  have hex := fun x => hw.seg x
  refine ⟨h2, addUp_of h2 (fun x => Classical.choose (hex x))
    (fun x => ⟨(Classical.choose_spec (hex x)).1.optimal.1, (Classical.choose_spec (hex x)).2⟩) ?_ h3⟩
  intro p s hp
  refine ht.nonempty s ?_
  unfold pieceStrings
  cases p with
  | tok i =>
    rw [Piece.string_tok] at hp
    exact List.mem_append.2 (.inl (mem_strTokens.2 (List.mem_of_getElem? hp)))
  | seq i =>
    rw [Piece.string_seq] at hp
    obtain ⟨q, hq, rfl⟩ := hp
    exact List.mem_append.2 (.inr (List.mem_map.2 ⟨q, List.mem_of_getElem? hq, rfl⟩))

/-- **C132**.  Whatever the data: the counters that a tokenization reports agree with each other. -/
theorem C132_counts_add_up (ts : TokenSet) (hseq : SeqsInRange ts) (samples : List Bytes)
    (n : Option Nat) (st : TokenStats) (h : tokenizeFileSync ts samples n = .ok st) : AddUp samples st :=
  (counts_add_up hseq h).2

/-- **C132**, for `tokenize_file` on any number of threads. -/
theorem C132_any_threads (ts : TokenSet) (hseq : SeqsInRange ts) (sampler : SamplerData) (n : Option Nat)
    (nthreads : Nat) (hN : 0 < nthreads) (st : TokenStats) (h : TokenizeFile ts sampler n nthreads st) :
    AddUp sampler.samples st :=
  C132_counts_add_up ts hseq _ n st (C07_tokenize_file ts hseq sampler n nthreads hN st h)

/-- **C132** for sets without sequences: the pairs are all tokens but one for each sample with data. -/
theorem C132_no_sequences (ts : TokenSet) (hnone : ts.sequences = []) (samples : List Bytes)
    (n : Option Nat) (st : TokenStats) (h : tokenizeFileSync ts samples n = .ok st) :
    st.pairCounts.sum + (samples.filter (· ≠ [])).length = st.totalTokens := by
  have hseq : SeqsInRange ts := by intro q hq; rw [hnone] at hq; simp at hq
  obtain ⟨hs, ha⟩ := counts_add_up hseq h
  have h1 := ha.few
  have h2 := ha.many
  have h3 := ha.total
  have h4 : st.seqCounts.sum = 0 := by
    have := hs.seqCounts
    rw [hnone] at this
    rw [List.eq_nil_of_length_eq_zero this]; rfl
  have h5 : sumTo st.tokenSet.sequences.length (fun j => st.seqCounts.getD j 0 *
      (((st.tokenSet.sequences[j]?).map (·.tokens)).getD []).length) = 0 := by
    rw [hs.tokenSet, hnone]; rfl
  omega

/-- **C132**, what the optimizer makes of it: the gain it expects from the best pair is never more than the number
of times either of the two tokens was written for itself. -/
theorem C132_gain_bounded (ts : TokenSet) (hseq : SeqsInRange ts) (samples : List Bytes)
    (n : Option Nat) (st : TokenStats) (h : tokenizeFileSync ts samples n = .ok st) (a b : Nat)
    (ha : a < ts.tokens.length) (hb : b < ts.tokens.length) :
    pairCount st a b ≤ forItself st a ∧ pairCount st a b ≤ forItself st b ∧
    pairCount st a b ≤ st.tokenCounts.getD a 0 ∧ pairCount st a b ≤ st.tokenCounts.getD b 0 := by
  obtain ⟨hs, hu⟩ := counts_add_up hseq h
  have h1 := hu.row a (by rw [hs.tokenSet]; exact ha)
  have h2 := hu.column b (by rw [hs.tokenSet]; exact hb)
  rw [hs.tokenSet] at h1 h2
  have g1 := le_sumTo (f := fun b => pairCount st a b) hb
  have g2 := le_sumTo (f := fun a => pairCount st a b) ha
  have e1 : forItself st a ≤ st.tokenCounts.getD a 0 := Nat.sub_le _ _
  have e2 : forItself st b ≤ st.tokenCounts.getD b 0 := Nat.sub_le _ _
  omega

-- the hypotheses are met by a set with long tokens and sequences, for any samples
example (samples : List Bytes) : ∃ st, tokenizeFileSync Example.grown samples none = .ok st ∧ AddUp samples st := by
  obtain ⟨tk, h, _⟩ := new_ok_of Example.grown_ok.1
  obtain ⟨d, hw⟩ := exists_work h Example.grown_ok.2
  obtain ⟨st, h, _⟩ := sync_ok h hw samples none
  exact ⟨st, h, C132_counts_add_up _ Example.grown_ok.2 samples none st h⟩

-- and the set of the 256 bytes, which has no sequences
example (samples : List Bytes) : ∃ ts st, ts.sequences = [] ∧ tokenizeFileSync ts samples none = .ok st ∧
    st.pairCounts.sum + (samples.filter (· ≠ [])).length = st.totalTokens := by
  have hf := bytesSet_family .raw
  obtain ⟨st, h⟩ := sync_exists hf.accepted hf.inRange samples none
  have hq : (bytesSet .raw).sequences = [] := rfl
  exact ⟨_, st, hq, h, C132_no_sequences _ hq samples none st h⟩

end Tokens.Props
