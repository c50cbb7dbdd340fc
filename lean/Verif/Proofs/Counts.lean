import Verif.Model.Batch
import Verif.Proofs.Examples

/-! All counters of a statistics object as one function, and how tokenizing and merging change
them. -/

set_option linter.unusedSimpArgs false
set_option linter.unusedVariables false

namespace Tokens
open Spec FragmentTokenizer

/-- Names of the counters of a statistics object. -/
inductive Ix where
  | total
  | scanned
  | tok (i : Nat)
  | seq (j : Nat)
  | pair (k : Nat)
  deriving DecidableEq

/-- The value of a counter (0 beyond the end of an array). -/
def cnt (st : TokenStats) : Ix → Nat
  | .total => st.totalTokens
  | .scanned => st.scannedBytes
  | .tok i => st.tokenCounts.getD i 0
  | .seq j => st.seqCounts.getD j 0
  | .pair k => st.pairCounts.getD k 0

theorem list_ext_getD {a b : List Nat} (hl : a.length = b.length)
    (h : ∀ i, a.getD i 0 = b.getD i 0) : a = b := by
  apply List.ext_getElem hl
  intro i h1 h2
  have := h i
  simpa [List.getD_eq_getElem?_getD, List.getElem?_eq_getElem h1, List.getElem?_eq_getElem h2]
    using this

theorem stats_ext {ts : TokenSet} {a b : TokenStats} (ha : Shaped ts a) (hb : Shaped ts b)
    (hi : a.initialSize = b.initialSize) (h : ∀ ix, cnt a ix = cnt b ix) : a = b := by
  have h1 := list_ext_getD (ha.tokenCounts.trans hb.tokenCounts.symm) (fun i => h (.tok i))
  have h2 := list_ext_getD (ha.seqCounts.trans hb.seqCounts.symm) (fun i => h (.seq i))
  have h3 := list_ext_getD (ha.pairCounts.trans hb.pairCounts.symm) (fun i => h (.pair i))
  have h4 := h .total
  have h5 := h .scanned
  have h6 := ha.tokenSet.trans hb.tokenSet.symm
  cases a; cases b
  simp_all [cnt]

theorem cnt_new (ts : TokenSet) (n : Option Nat) (ix : Ix) : cnt (TokenStats.new ts n) ix = 0 := by
  have h : ∀ m i, (List.replicate m 0).getD i 0 = 0 := by
    intro m i
    rw [List.getD_eq_getElem?_getD, List.getElem?_replicate]
    split <;> rfl
  cases ix <;> simp only [cnt, TokenStats.new, h]

/-- The counts of one segmentation. -/
def segCount (ts : TokenSet) (ps : List Piece) (len : Nat) : Ix → Nat
  | .total => (output ts ps).length
  | .scanned => len
  | .tok i => if i < ts.tokens.length then (output ts ps).count i else 0
  | .seq j => if j < ts.sequences.length then ps.count (.seq j) else 0
  | .pair k => if k < ts.tokens.length * ts.tokens.length then
      pairOcc (k / ts.tokens.length) (k % ts.tokens.length) ps else 0

theorem getD_ge {l : List Nat} {i : Nat} (h : l.length ≤ i) : l.getD i 0 = 0 := by
  simp [List.getD_eq_getElem?_getD, List.getElem?_eq_none h]

theorem counted_cnt {ts : TokenSet} {ps : List Piece} {len : Nat} {st st' : TokenStats}
    (hst : Shaped ts st) (h : Counted ts ps len st st') :
    Shaped ts st' ∧ ∀ ix, cnt st' ix = cnt st ix + segCount ts ps len ix := by
  refine ⟨⟨h.tokenSet.trans hst.tokenSet, h.tokenLen.trans hst.tokenCounts,
    h.seqLen.trans hst.seqCounts, h.pairLen.trans hst.pairCounts⟩, ?_⟩
  intro ix
  cases ix with
  | total => exact h.total
  | scanned => exact h.scanned
  | tok i =>
    simp only [cnt, segCount]
    split
    · next hi => exact h.token i hi
    · next hi =>
      rw [getD_ge (by rw [h.tokenLen, hst.tokenCounts]; omega),
        getD_ge (by rw [hst.tokenCounts]; omega)]
  | seq i =>
    simp only [cnt, segCount]
    split
    · next hi => exact h.seq i hi
    · next hi =>
      rw [getD_ge (by rw [h.seqLen, hst.seqCounts]; omega),
        getD_ge (by rw [hst.seqCounts]; omega)]
  | pair k =>
    simp only [cnt, segCount]
    split
    · next hi =>
      have hn : 0 < ts.tokens.length := by
        rcases Nat.eq_zero_or_pos ts.tokens.length with h0 | h0
        · rw [h0] at hi; omega
        · exact h0
      have h1 := h.pair (k / ts.tokens.length) (Nat.div_lt_of_lt_mul hi)
        (k % ts.tokens.length) (Nat.mod_lt _ hn)
      have h2 : k / ts.tokens.length * ts.tokens.length + k % ts.tokens.length = k := by
        rw [Nat.mul_comm]; exact Nat.div_add_mod _ _
      rwa [h2] at h1
    · next hi =>
      rw [getD_ge (by rw [h.pairLen, hst.pairCounts]; omega),
        getD_ge (by rw [hst.pairCounts]; omega)]

/-- `d` is what tokenizing a sample adds to every counter. -/
structure Work (ts : TokenSet) (tk : FragmentTokenizer) (d : Bytes → Ix → Nat) : Prop where
  ok : ∀ text st, Shaped ts st → ∃ st', processSlice tk text st = .ok st' ∧ Shaped ts st' ∧
    st'.initialSize = st.initialSize ∧ ∀ ix, cnt st' ix = cnt st ix + d text ix
  seg : ∀ text, ∃ ps, LongestLast ts ps text ∧ d text = segCount ts ps text.length

theorem exists_longestLast {ts : TokenSet} (ht : Tokenizable ts) (hseq : SeqsInRange ts)
    (text : Bytes) : ∃ ps, LongestLast ts ps text := by
  obtain ⟨tk, _, hk⟩ := new_ok_of ht
  obtain ⟨_, ps, _, h, _⟩ := processSlice_ok hk hseq text _ (shaped_new ts none)
  exact ⟨ps, h⟩

theorem exists_work {ts : TokenSet} {tk : FragmentTokenizer} (hnew : new ts = .ok tk)
    (hseq : SeqsInRange ts) : ∃ d, Work ts tk d := by
  obtain ⟨hk, ht⟩ := ok_of_new hnew
  have hex := exists_longestLast ht hseq
  refine ⟨fun text => segCount ts (Classical.choose (hex text)) text.length, ?_, ?_⟩
  · intro text st hst
    obtain ⟨st', ps, h1, h2, h3⟩ := processSlice_ok hk hseq text st hst
    have hps := longestLast_unique ht h2 (Classical.choose_spec (hex text))
    subst hps
    obtain ⟨h4, h5⟩ := counted_cnt hst h3
    exact ⟨st', h1, h4, h3.initialSize, h5⟩
  · intro text
    exact ⟨_, Classical.choose_spec (hex text), rfl⟩

theorem addVec_ok {a b : List Nat} (h : a.length ≤ b.length) :
    ∃ c, TokenStats.addVec a b = .ok c ∧ c.length = a.length ∧
      ∀ i < a.length, c.getD i 0 = a.getD i 0 + b.getD i 0 := by
  induction a generalizing b with
  | nil => exact ⟨[], rfl, rfl, by simp⟩
  | cons x a ih =>
    cases b with
    | nil => simp at h
    | cons y b =>
      obtain ⟨c, h1, h2, h3⟩ := ih (b := b) (by simpa using h)
      refine ⟨(x + y) :: c, ?_, by simp [h2], ?_⟩
      · rw [TokenStats.addVec, h1]; rfl
      · intro i hi
        cases i with
        | zero => simp
        | succ i => simpa using h3 i (by simpa using hi)

theorem merge_ok {ts : TokenSet} {a b : TokenStats} (ha : Shaped ts a) (hb : Shaped ts b) :
    ∃ c, a.merge b = .ok c ∧ Shaped ts c ∧ c.initialSize = a.initialSize ∧
      ∀ ix, cnt c ix = cnt a ix + cnt b ix := by
  obtain ⟨c1, h1, l1, g1⟩ := addVec_ok (a := a.tokenCounts) (b := b.tokenCounts)
    (by rw [ha.tokenCounts, hb.tokenCounts]; exact Nat.le_refl _)
  obtain ⟨c2, h2, l2, g2⟩ := addVec_ok (a := a.seqCounts) (b := b.seqCounts)
    (by rw [ha.seqCounts, hb.seqCounts]; exact Nat.le_refl _)
  obtain ⟨c3, h3, l3, g3⟩ := addVec_ok (a := a.pairCounts) (b := b.pairCounts)
    (by rw [ha.pairCounts, hb.pairCounts]; exact Nat.le_refl _)
  refine ⟨{ a with
        totalTokens := a.totalTokens + b.totalTokens,
        scannedBytes := a.scannedBytes + b.scannedBytes,
        tokenCounts := c1, seqCounts := c2, pairCounts := c3 },
    by unfold TokenStats.merge; rw [h1, h2, h3]; rfl, ?_, rfl, ?_⟩
  · exact ⟨ha.tokenSet, l1.trans ha.tokenCounts, l2.trans ha.seqCounts, l3.trans ha.pairCounts⟩
  · have key : ∀ (x y c : List Nat), x.length = y.length → c.length = x.length →
        (∀ i < x.length, c.getD i 0 = x.getD i 0 + y.getD i 0) →
        ∀ i, c.getD i 0 = x.getD i 0 + y.getD i 0 := by
      intro x y c hxy hc h i
      by_cases hi : i < x.length
      · exact h i hi
      · rw [getD_ge (by omega : c.length ≤ i), getD_ge (by omega : x.length ≤ i),
          getD_ge (by omega : y.length ≤ i)]
    intro ix
    cases ix with
    | total => rfl
    | scanned => rfl
    | tok i => exact key _ _ _ (ha.tokenCounts.trans hb.tokenCounts.symm) l1 g1 i
    | seq i => exact key _ _ _ (ha.seqCounts.trans hb.seqCounts.symm) l2 g2 i
    | pair i => exact key _ _ _ (ha.pairCounts.trans hb.pairCounts.symm) l3 g3 i

/-- Sum of what all samples add to a counter. -/
def workSum (d : Bytes → Ix → Nat) (l : List Bytes) (ix : Ix) : Nat := (l.map (fun s => d s ix)).sum

@[simp] theorem workSum_nil (d ix) : workSum d [] ix = 0 := rfl
@[simp] theorem workSum_cons (d s l ix) : workSum d (s :: l) ix = d s ix + workSum d l ix := by
  simp [workSum]
@[simp] theorem workSum_append (d l l' ix) :
    workSum d (l ++ l') ix = workSum d l ix + workSum d l' ix := by
  simp [workSum]

theorem processAll_ok {ts : TokenSet} {tk : FragmentTokenizer} {d} (hw : Work ts tk d)
    (samples : List Bytes) (st : TokenStats) (hst : Shaped ts st) :
    ∃ st', Batch.processAll tk samples st = .ok st' ∧ Shaped ts st' ∧
      st'.initialSize = st.initialSize ∧ ∀ ix, cnt st' ix = cnt st ix + workSum d samples ix := by
  induction samples generalizing st with
  | nil => exact ⟨st, rfl, hst, rfl, fun _ => rfl⟩
  | cons s ss ih =>
    obtain ⟨st1, h1, h2, h3, h4⟩ := hw.ok s st hst
    obtain ⟨st2, g1, g2, g3, g4⟩ := ih st1 h2
    refine ⟨st2, ?_, g2, g3.trans h3, ?_⟩
    · rw [Batch.processAll, h1]; exact g1
    · intro ix; rw [g4, h4, workSum_cons]; omega

theorem sync_ok {ts : TokenSet} {tk : FragmentTokenizer} {d} (hnew : new ts = .ok tk)
    (hw : Work ts tk d) (samples : List Bytes) (n : Option Nat) :
    ∃ st', Batch.tokenizeFileSync ts samples n = .ok st' ∧ Shaped ts st' ∧
      st'.initialSize = n ∧ ∀ ix, cnt st' ix = workSum d samples ix := by
  obtain ⟨st', h1, h2, h3, h4⟩ := processAll_ok hw samples _ (shaped_new ts n)
  refine ⟨st', ?_, h2, h3, ?_⟩
  · unfold Batch.tokenizeFileSync; rw [hnew]; exact h1
  · intro ix; rw [h4, cnt_new]; omega

end Tokens
