import Verif.Props.Cuts
import Verif.Props.Progress
import Verif.Props.Edits
import Verif.Props.Compare
import Verif.Props.WordCost
import Verif.Props.Bpe
import Verif.Props.Pipeline

/-!
# C05, C06, C33, C34, C41, C42, C72, C73, C74, C76, C81, C110 for `tokenize_file` on any number of threads

The theorems of these names are about the sequential tokenizer.  Here they are stated for
`tokenize_file` itself, which may choose the sequential or the parallel path and run it in any schedule
(`Verif/Model/Batch.lean`); the step is C07.
-/

namespace Tokens.Props
open Tokens Spec Batch Optimize

/-- **C05**, for `tokenize_file`. -/
theorem C05_any_threads (ts : TokenSet) (hseq : SeqsInRange ts) (sampler : SamplerData) (n : Option Nat)
    (nthreads : Nat) (hN : 0 < nthreads) (st : TokenStats) (h : TokenizeFile ts sampler n nthreads st) :
    st.tokenCounts.sum = st.totalTokens ∧
    st.scannedBytes = (sampler.samples.map (·.length)).sum ∧
    ∃ seg : Bytes → List Piece, (∀ x ∈ sampler.samples, Optimal ts x (seg x)) ∧
      st.totalTokens = (sampler.samples.map (fun x => (output ts (seg x)).length)).sum := by
  obtain ⟨h1, h2, _, h3⟩ := C05_accounting ts hseq _ n st (C07_tokenize_file ts hseq sampler n nthreads hN st h)
  exact ⟨h1, h2, h3⟩

/-- **C06**, for `tokenize_file`: two runs on the same samples, before and after adding a token, on any
numbers of threads. -/
theorem C06_any_threads (ts : TokenSet) (hseq : SeqsInRange ts) (s : Bytes) (hs : s ≠ [])
    (hnew : Token.str s ∉ ts.tokens) (hne : ∀ q ∈ ts.sequences, q.string = s → q.tokens ≠ [])
    (sampler : SamplerData) (n n' : Option Nat) (nthreads nthreads' : Nat) (hN : 0 < nthreads)
    (hN' : 0 < nthreads') (st st' : TokenStats) (h : TokenizeFile ts sampler n nthreads st)
    (ts' : TokenSet) (i : Nat) (ha : ts.addToken s = .ok (ts', i))
    (h' : TokenizeFile ts' sampler n' nthreads' st') : st'.totalTokens ≤ st.totalTokens := by
  have h1 := C07_tokenize_file ts hseq sampler n nthreads hN st h
  have h2 := C07_tokenize_file ts' (seqsInRange_addToken hseq ha) sampler n' nthreads' hN' st' h'
  obtain ⟨ts2, i2, st2, g1, g2, g3⟩ := C06_adding_never_hurts ts hseq s hs hnew hne sampler.samples n st h1
  have e := Except.ok.inj (g1.symm.trans ha)
  simp only [Prod.mk.injEq] at e
  obtain ⟨rfl, rfl⟩ := e
  obtain ⟨_, _, _, seg, a1, a2⟩ := C05_accounting ts2 (seqsInRange_addToken hseq ha) _ n st2 g2
  obtain ⟨_, _, _, seg', b1, b2⟩ := C05_accounting ts2 (seqsInRange_addToken hseq ha) _ n' st' h2
  have : st'.totalTokens = st2.totalTokens := by
    rw [a2, b2]
    congr 1
    refine List.map_congr_left fun x hx => ?_
    have c1 := (a1 x hx).2 _ (b1 x hx).1
    have c2 := (b1 x hx).2 _ (a1 x hx).1
    omega
  omega

theorem total_unique {ts : TokenSet} (hr : SeqsInRange ts) {samples : List Bytes} {n n' : Option Nat}
    {x y : TokenStats} (hx : tokenizeFileSync ts samples n = .ok x) (hy : tokenizeFileSync ts samples n' = .ok y) :
    x.totalTokens = y.totalTokens := by
  have hc : Covers ts ts := ⟨fun s hs => writes_token hs, fun q hq => writes_seq hq⟩
  exact Nat.le_antisymm (covered_sync hr hr hc hy hx) (covered_sync hr hr hc hx hy)

/-- **C33**, for `tokenize_file`. -/
theorem C33_any_threads (ts : TokenSet) (hseq : SeqsInRange ts) (sampler : SamplerData) (n : Option Nat)
    (nthreads : Nat) (hN : 0 < nthreads) (st : TokenStats) (h : TokenizeFile ts sampler n nthreads st) :
    ((∀ a b s, ¬ SeenPair st a b s) ∧ addTokenBpe st = .ok none) ∨
    ∃ a b s ts' i d, SeenPair st a b s ∧ Token.str s ∉ ts.tokens ∧
      addTokenBpe st = .ok (some (ts', d)) ∧ ts.addToken s = .ok (ts', i) ∧
      Tokenizable ts' ∧ SeqsInRange ts' ∧ ∃ tk, FragmentTokenizer.new ts' = .ok tk :=
  C33_bpe_new_string ts hseq _ n st (C07_tokenize_file ts hseq sampler n nthreads hN st h)

/-- **C74**, for `tokenize_file`: the counts are those of a list of tokens from which the data can be recovered. -/
theorem C74_any_threads (ts : TokenSet) (hf : Family ts) :
    ∃ decode : List Nat → Bytes, ∀ (sampler : SamplerData) (n : Option Nat) (nthreads : Nat) (st : TokenStats),
      0 < nthreads → TokenizeFile ts sampler n nthreads st →
      ∃ tokens : Bytes → List Nat,
        (∀ x ∈ sampler.samples, ∃ ps, Optimal ts x ps ∧ tokens x = output ts ps) ∧
        (∀ i, st.tokenCounts.getD i 0 = (sampler.samples.flatMap tokens).count i) ∧
        st.totalTokens = (sampler.samples.flatMap tokens).length ∧
        decode (sampler.samples.flatMap tokens) = sampler.samples.flatten := by
  obtain ⟨decode, h⟩ := C74_counts_of_recoverable_tokens ts hf
  exact ⟨decode, fun sampler n nthreads st hN ht =>
    h _ n st (C07_tokenize_file ts (Tokens.Family.usable hf).inRange sampler n nthreads hN st ht)⟩

/-- **C34**, for `tokenize_file`. -/
theorem C34_any_threads (ts : TokenSet) (hseq : SeqsInRange ts) (sampler : SamplerData) (n : Option Nat)
    (nthreads : Nat) (hN : 0 < nthreads) (st : TokenStats) (h : TokenizeFile ts sampler n nthreads st)
    (hex : ∃ a b s, SeenPair st a b s ∧ ¬ HasInnerBreak s) :
    ∃ a b s ts' i, SeenPair st a b s ∧ ¬ HasInnerBreak s ∧
      addTokenBpe st = .ok (some (ts', (pairCount st a b : Int))) ∧ ts.addToken s = .ok (ts', i) ∧
      ∀ a' b' s', SeenPair st a' b' s' → ¬ HasInnerBreak s' →
        pairCount st a' b' ≤ pairCount st a b ∧
        (pairCount st a' b' = pairCount st a b → PairBefore a b a' b') :=
  C34_bpe_most_frequent ts hseq _ n st (C07_tokenize_file ts hseq sampler n nthreads hN st h) hex

/-- **C41**, for `tokenize_file`: two runs on the same samples, before and after, on any numbers of threads. -/
theorem C41_any_threads (ty : TokenType) (p : Processing) (ntokens : Nat) (st : TokenStats)
    (hwk : Workable ty p ntokens st.tokenSet) (hlt : st.tokenSet.tokens.length < ntokens)
    (sampler : SamplerData) (n n' : Option Nat) (nthreads nthreads' : Nat) (hN : 0 < nthreads) (hN' : 0 < nthreads')
    (h : TokenizeFile st.tokenSet sampler n nthreads st) (ts' : TokenSet) (d : Int)
    (ha : addByte (optimizerFor ty) st = .ok (some (ts', d))) (st' : TokenStats)
    (h' : TokenizeFile ts' sampler n' nthreads' st') : (st'.totalTokens : Int) ≤ st.totalTokens - d := by
  have h1 := C07_tokenize_file _ (Tokens.Family.usable hwk.family).inRange sampler n nthreads hN st h
  rcases C41_add_byte ⟨sampler, n, nthreads⟩ ty p ntokens st hwk hlt sampler.samples n h1 with h0 |
    ⟨t, d', st1, g1, g2, _, _, g3, g4⟩
  · rw [h0] at ha; cases ha
  · have e := Except.ok.inj (g1.symm.trans ha)
    simp only [Option.some.injEq, Prod.mk.injEq] at e
    obtain ⟨rfl, rfl⟩ := e
    have hr' := (Tokens.Family.usable g2.family).inRange
    rw [← total_unique hr' g3 (C07_tokenize_file _ hr' sampler n' nthreads' hN' st' h')]
    exact g4

/-- **C42**, for `tokenize_file`: two runs on the same samples, before and after, on any numbers of threads. -/
theorem C42_any_threads (ts : TokenSet) (hseq : SeqsInRange ts) (sampler : SamplerData) (n n' : Option Nat)
    (nthreads nthreads' : Nat) (hN : 0 < nthreads) (hN' : 0 < nthreads') (st : TokenStats)
    (h : TokenizeFile ts sampler n nthreads st) (ts' : TokenSet) (d : Int)
    (hr : addTokenBpe st = .ok (some (ts', d))) (st' : TokenStats) (h' : TokenizeFile ts' sampler n' nthreads' st') :
    2 * (st'.totalTokens : Int) + d ≤ 2 * st.totalTokens ∧ st'.totalTokens < st.totalTokens ∧
      ∃ a b s, SeenPair st a b s ∧ (d = pairCount st a b ∨ d = 0) ∧
        (a ≠ b → (st'.totalTokens : Int) + d ≤ st.totalTokens) := by
  have h1 := C07_tokenize_file ts hseq sampler n nthreads hN st h
  obtain ⟨a, b, s, i, x, g1, g2, g3, g4, g5, g6, g7⟩ := C42_pair_saving ts hseq _ n st h1 ts' d hr
  obtain ⟨y, k1, k2⟩ := C42_pair_strict ts hseq _ n st h1 ts' d hr
  have hr' := seqsInRange_addToken hseq g2
  have h2 := C07_tokenize_file ts' hr' sampler n' nthreads' hN' st' h'
  have e1 := total_unique hr' g5 h2
  have e2 := total_unique hr' k1 h2
  rw [e1] at g6 g7
  rw [e2] at k2
  exact ⟨g6, k2, a, b, s, g1, g4, g7⟩

/-- **C72**, for `tokenize_file`: two samplers that cut the same data in different ways, on any numbers of
threads. -/
theorem C72_any_threads (ts : TokenSet) (hseq : SeqsInRange ts) (m k : Nat) (hm : PiecesUpTo ts m)
    (hk : BytesWithin ts k) (s1 s2 : SamplerData) (hsame : s1.samples.flatten = s2.samples.flatten)
    (n n' : Option Nat) (nthreads nthreads' : Nat) (hN : 0 < nthreads) (hN' : 0 < nthreads')
    (a b : TokenStats) (ha : TokenizeFile ts s1 n nthreads a) (hb : TokenizeFile ts s2 n' nthreads' b) :
    a.totalTokens ≤ b.totalTokens + (s1.samples.length - 1) * (m * k) ∧
      b.totalTokens ≤ a.totalTokens + (s2.samples.length - 1) * (m * k) := by
  have h1 := C07_tokenize_file ts hseq s1 n nthreads hN a ha
  have h2 := C07_tokenize_file ts hseq s2 n' nthreads' hN' b hb
  exact ⟨C72_how_it_is_cut ts hseq m k hm hk _ _ hsame n n' a b h1 h2,
    C72_how_it_is_cut ts hseq m k hm hk _ _ hsame.symm n' n b a h2 h1⟩

/-- **C73**, for `tokenize_file`. -/
theorem C73_any_threads (ts : TokenSet) (hf : Family ts) (m : Nat) (hm : PiecesUpTo ts m)
    (sampler : SamplerData) (n : Option Nat) (nthreads : Nat) (hN : 0 < nthreads) (st : TokenStats)
    (h : TokenizeFile ts sampler n nthreads st) :
    st.totalTokens ≤ tokensPerByte ts.tokenType * st.scannedBytes ∧ st.scannedBytes ≤ m * st.totalTokens :=
  C73_by_type ts hf m hm _ n st (C07_tokenize_file ts (Tokens.Family.usable hf).inRange sampler n nthreads hN st h)

/-- **C76**, for `tokenize_file`. -/
theorem C76_any_threads (ts : TokenSet) (hseq : SeqsInRange ts) (sampler : SamplerData) (n : Option Nat)
    (nthreads : Nat) (hN : 0 < nthreads) (st : TokenStats) (h : TokenizeFile ts sampler n nthreads st)
    (a b c d : Nat) (s : Bytes) (h1 : SeenPair st a b s) (h2 : SeenPair st c d s) : a = c ∧ b = d :=
  C76_pair_is_text ts hseq _ n st (C07_tokenize_file ts hseq sampler n nthreads hN st h) a b c d s h1 h2

/-- **C81**, for `tokenize_file`: a sampler that gives the processed text in one slice, on any number of
threads. -/
theorem C81_any_threads (db : CharTables) (ts : TokenSet) (hts : Tokenizable ts) (hseq : SeqsInRange ts)
    (items : List Item) (hm : Maximal db items)
    (hw : ∀ w ∈ wordsOf items, utf8Encode (smallWord db w ++ [Char.ofNat 0x16]) ∈ strTokens ts)
    (h1 : ∀ w ∈ wordsOf items, capitalized db w → utf8Encode [Char.ofNat 0x14] ∈ strTokens ts)
    (h2 : ∀ w ∈ wordsOf items, allCaps db w → utf8Encode [Char.ofNat 0x15] ∈ strTokens ts)
    (hb : ∀ b ∈ utf8Encode (betweenWords items), [b] ∈ strTokens ts)
    (z : Text) (hz : Processing.process db (textOf items) = .ok z) (sampler : SamplerData)
    (hs : sampler.samples = [utf8Encode z]) (n : Option Nat) (nthreads : Nat) (hN : 0 < nthreads)
    (st : TokenStats) (h : TokenizeFile ts sampler n nthreads st) :
    st.totalTokens ≤ (wordsOf items).length + ((wordsOf items).map (markers db)).sum +
      (utf8Encode (betweenWords items)).length := by
  obtain ⟨z', g1, g2⟩ := C81_words_cost_one_token db ts hts hseq items hm hw h1 h2 hb
  obtain rfl := Except.ok.inj (g1.symm.trans hz)
  obtain ⟨st', k1, k2⟩ := g2 n
  have h3 := C07_tokenize_file ts hseq sampler n nthreads hN st h
  rw [hs] at h3
  exact total_unique hseq h3 k1 ▸ k2

/-- **C110**, for `tokenize_file`: the data before and after an edit of one sample, on any numbers of
threads; the totals differ by a bound that does not depend on the size of the data. -/
theorem C110_any_threads (ts : TokenSet) (hseq : SeqsInRange ts) (m k : Nat) (hm : PiecesUpTo ts m)
    (hk : BytesWithin ts k) (before after : List Bytes) (u v v' w : Bytes) (s1 s2 : SamplerData)
    (h1 : s1.samples = before ++ [u ++ v ++ w] ++ after) (h2 : s2.samples = before ++ [u ++ v' ++ w] ++ after)
    (n n' : Option Nat) (nthreads nthreads' : Nat) (hN : 0 < nthreads) (hN' : 0 < nthreads')
    (a b : TokenStats) (ha : TokenizeFile ts s1 n nthreads a) (hb : TokenizeFile ts s2 n' nthreads' b) :
    b.totalTokens ≤ a.totalTokens + k * v'.length + 2 * (m * k) ∧
      a.totalTokens ≤ b.totalTokens + k * v.length + 2 * (m * k) := by
  have g1 := C07_tokenize_file ts hseq s1 n nthreads hN a ha
  have g2 := C07_tokenize_file ts hseq s2 n' nthreads' hN' b hb
  rw [h1] at g1
  rw [h2] at g2
  exact ⟨C110_edit ts hseq m k hm hk before after u v v' w n n' a b g1 g2,
    C110_edit ts hseq m k hm hk before after u v' v w n' n b a g2 g1⟩

/-! The hypotheses are met: the same data cut in two ways. -/

example : ∃ a b, TokenizeFile Example.grown ⟨[[97], [98, 99], [100]], 4⟩ none 3 a ∧
    TokenizeFile Example.grown ⟨[[97, 98, 99, 100]], 4⟩ (some 4) 2 b ∧
    ([[97], [98, 99], [100]] : List Bytes).flatten = ([[97, 98, 99, 100]] : List Bytes).flatten := by
  obtain ⟨a, h1⟩ := sync_exists Example.grown_ok.1 Example.grown_ok.2 [[97], [98, 99], [100]] none
  obtain ⟨b, h2⟩ := sync_exists Example.grown_ok.1 Example.grown_ok.2 [[97, 98, 99, 100]] (some 4)
  exact ⟨a, b, .sync (by decide) h1, .sync (by decide) h2, rfl⟩

end Tokens.Props
