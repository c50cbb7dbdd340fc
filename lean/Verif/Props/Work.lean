import Verif.Proofs.Work
import Verif.Props.Cuts

/-!
# Property C106: the work of tokenizing is linear in the text

Read together with `Verif/Spec/Work.lean`.  `processSliceW` is `processSlice` with a counter in every
loop (`Verif/Model/Work.lean`); `FragmentTokenizer.new ts = .ok tk`: the set was accepted.
-/

namespace Tokens.Props
open Tokens Spec TokenSet

set_option linter.unusedVariables false

/-- **C106**.  Tokenizing a text goes once over its bytes, looks once at each occurrence of a token or
sequence in it, goes back over it in at most one round for a byte, and looks once at each token and
sequence of the set.  Counting the rounds changes nothing. -/
theorem C106_work (ts : TokenSet) (tk : FragmentTokenizer) (hnew : FragmentTokenizer.new ts = .ok tk)
    (hseq : SeqsInRange ts) (text : Bytes) (st : TokenStats) (hst : Shaped ts st) :
    ∃ st' w, FragmentTokenizer.processSlice tk text st = .ok st' ∧
      FragmentTokenizer.processSliceW tk text st = .ok (st', w) ∧
      w.bytes = text.length ∧ w.searched = occurrences ts text ∧ w.traced ≤ text.length ∧
      w.spans = (pieceStrings ts).length := by
  obtain ⟨st', w, h1, h2, h3, h4, h5, h6⟩ := FragmentTokenizer.processSliceW_ok hnew hseq text st hst
  refine ⟨st', w, h1, h2, h3, h4, h5, ?_⟩
  rw [h6, FragmentTokenizer.spans_count hnew]; omega

/-- **C106**.  So for a set without pieces longer than `m` bytes, the work is at most `m + 2` rounds for
each byte of the text, and one for each token and sequence: linear in the text, whatever the text is. -/
theorem C106_linear (ts : TokenSet) (tk : FragmentTokenizer) (hnew : FragmentTokenizer.new ts = .ok tk)
    (hseq : SeqsInRange ts) (m : Nat) (hm : PiecesUpTo ts m) (text : Bytes) (st : TokenStats)
    (hst : Shaped ts st) :
    ∃ st' w, FragmentTokenizer.processSliceW tk text st = .ok (st', w) ∧
      2 * text.length ≤ w.all ∧
      w.all ≤ text.length * (m + 2) + (pieceStrings ts).length := by
  obtain ⟨_, ht⟩ := FragmentTokenizer.ok_of_new hnew
  obtain ⟨st', w, _, h2, h3, h4, h5, h6⟩ := C106_work ts tk hnew hseq text st hst
  have h7 := FragmentTokenizer.occurrences_le ht hm text
  have h8 := FragmentTokenizer.le_occurrences ht text
  refine ⟨st', w, h2, ?_, ?_⟩
  · unfold Rounds.all; omega
  · unfold Rounds.all
    rw [Nat.mul_add]; omega

/-- **C106**.  The same for all samples of a run: `m + 2` rounds for a byte of the data, and one for each
token and sequence in each sample. -/
theorem C106_data (ts : TokenSet) (tk : FragmentTokenizer) (hnew : FragmentTokenizer.new ts = .ok tk)
    (hseq : SeqsInRange ts) (m : Nat) (hm : PiecesUpTo ts m) (samples : List Bytes) (st : TokenStats)
    (hst : Shaped ts st) :
    ∃ st' k, Batch.processAll tk samples st = .ok st' ∧
      FragmentTokenizer.processAllW tk samples st = .ok (st', k) ∧
      k ≤ samples.flatten.length * (m + 2) + samples.length * (pieceStrings ts).length := by
  induction samples generalizing st with
  | nil => exact ⟨st, 0, rfl, rfl, Nat.zero_le _⟩
  | cons x xs ih =>
    obtain ⟨st1, w, h1, h2, _⟩ := C106_work ts tk hnew hseq x st hst
    obtain ⟨st1', w', h3, _, h4⟩ := C106_linear ts tk hnew hseq m hm x st hst
    have e := Except.ok.inj (h3.symm.trans h2)
    obtain ⟨rfl, rfl⟩ := Prod.mk.inj e
    have hst1 : Shaped ts st1' := by
      obtain ⟨hk, _⟩ := FragmentTokenizer.ok_of_new hnew
      obtain ⟨st2, ps, g1, _, g2⟩ := FragmentTokenizer.processSlice_ok hk hseq x st hst
      have e := Except.ok.inj (g1.symm.trans h1)
      rw [← e]
      exact (counted_cnt hst g2).1
    obtain ⟨st2, k, g1, g2, g3⟩ := ih st1' hst1
    refine ⟨st2, w'.all + k, ?_, ?_, ?_⟩
    · rw [Batch.processAll, h1]; exact g1
    · rw [FragmentTokenizer.processAllW, h2]
      simp only [R.ok_bind]
      rw [g2]; rfl
    · rw [List.flatten_cons, List.length_append, List.length_cons, Nat.add_mul, Nat.add_mul]
      omega

/-- **C106**.  What the automaton needs to know: it has a state for each prefix of a token or sequence, no
other, and no two for the same; so no more states than the bytes of all tokens and sequences, and one. -/
theorem C106_states (ts : TokenSet) (tk : FragmentTokenizer) (hnew : FragmentTokenizer.new ts = .ok tk) :
    (tk.suffixStates.map SuffixState.suffix).Nodup ∧
    (∀ t, t ∈ tk.suffixStates.map SuffixState.suffix ↔ t = [] ∨ ∃ s ∈ pieceStrings ts, t <+: s) ∧
    tk.suffixStates.length ≤ 1 + ((pieceStrings ts).map List.length).sum :=
  ⟨(FragmentTokenizer.states_exact hnew).1, (FragmentTokenizer.states_exact hnew).2,
    FragmentTokenizer.states_le hnew⟩

/-! ### The hypotheses are met -/

/-- For an accepted set with a longer token, on any data: at most five rounds for a byte. -/
example (samples : List Bytes) :
    ∃ tk st' k, FragmentTokenizer.new Example.grown = .ok tk ∧
      FragmentTokenizer.processAllW tk samples (TokenStats.new Example.grown none) = .ok (st', k) ∧
      k ≤ samples.flatten.length * 5 + samples.length * (pieceStrings Example.grown).length := by
  obtain ⟨tk, h, _⟩ := FragmentTokenizer.new_ok_of Example.grown_ok.1
  obtain ⟨st', k, _, h1, h2⟩ := C106_data _ tk h Example.grown_ok.2 3
    (by unfold PiecesUpTo; decide +kernel) samples _ (shaped_new _ none)
  exact ⟨tk, st', k, h, h1, h2⟩

end Tokens.Props
