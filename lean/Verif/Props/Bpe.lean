import Verif.Proofs.BpeExample
import Verif.Spec.Pairs

/-!
# Properties C33 - C35, C42: add_token_bpe

Read together with `Verif/Spec/Pairs.lean` and `Verif/Spec/Sampling.lean` (`HasInnerBreak`).
-/

namespace Tokens.Props
open Tokens Spec TokenSet Batch Optimize

theorem pairText_seen {ts : TokenSet} {st : TokenStats} (hts : st.tokenSet = ts) {a b : Nat} {s : Bytes}
    (h : SeenPair st a b s) : PairText ts (a * ts.tokens.length + b) s ∧
      (a * ts.tokens.length + b) / ts.tokens.length = a ∧
      (a * ts.tokens.length + b) % ts.tokens.length = b ∧
      0 < st.pairCounts.getD (a * ts.tokens.length + b) 0 := by
  obtain ⟨hs, s1, s2, ha, hb, e⟩ := h
  unfold pairCount at hs
  rw [hts] at ha hb hs
  obtain ⟨hlt, _⟩ := List.getElem?_eq_some_iff.1 hb
  have e1 : (a * ts.tokens.length + b) / ts.tokens.length = a := by
    rw [Nat.mul_comm, Nat.mul_add_div (by omega), Nat.div_eq_of_lt hlt, Nat.add_zero]
  have e2 : (a * ts.tokens.length + b) % ts.tokens.length = b := by
    rw [Nat.mul_add_mod_of_lt' hlt]
  exact ⟨⟨s1, s2, by rw [e1]; exact ha, by rw [e2]; exact hb, e⟩, e1, e2, hs⟩
where
  Nat.mul_add_mod_of_lt' {a n b : Nat} (h : b < n) : (a * n + b) % n = b := by
    rw [Nat.mul_comm, Nat.mul_add_mod, Nat.mod_eq_of_lt h]

theorem seen_pairText {ts : TokenSet} {st : TokenStats} (hts : st.tokenSet = ts) {k : Nat} {s : Bytes}
    (h : PairText ts k s) (hk : 0 < st.pairCounts.getD k 0) :
    SeenPair st (k / ts.tokens.length) (k % ts.tokens.length) s ∧
    pairCount st (k / ts.tokens.length) (k % ts.tokens.length) = st.pairCounts.getD k 0 := by
  have e : k / ts.tokens.length * ts.tokens.length + k % ts.tokens.length = k := by
    rw [Nat.mul_comm]; exact Nat.div_add_mod _ _
  have hc : pairCount st (k / ts.tokens.length) (k % ts.tokens.length) = st.pairCounts.getD k 0 := by
    unfold pairCount
    rw [hts, e]
  obtain ⟨s1, s2, ha, hb, e'⟩ := h
  refine ⟨⟨by rw [hc]; exact hk, s1, s2, ?_, ?_, e'⟩, hc⟩
  · rw [hts]; exact ha
  · rw [hts]; exact hb

/-! ## C33 the string added is new -/

/-- **C33**.  On the statistics of any tokenization, `add_token_bpe` does not panic.  If no pair of
tokens was seen, it proposes nothing; otherwise it proposes the set with one more token, the text of
a pair that was seen.  That text was not a token, and the tokenizer accepts the new set. -/
theorem C33_bpe_new_string (ts : TokenSet) (hseq : SeqsInRange ts) (samples : List Bytes)
    (n : Option Nat) (st : TokenStats) (h : tokenizeFileSync ts samples n = .ok st) :
    ((∀ a b s, ¬ SeenPair st a b s) ∧ addTokenBpe st = .ok none) ∨
    ∃ a b s ts' i d, SeenPair st a b s ∧ Token.str s ∉ ts.tokens ∧
      addTokenBpe st = .ok (some (ts', d)) ∧ ts.addToken s = .ok (ts', i) ∧
      Tokenizable ts' ∧ SeqsInRange ts' ∧ ∃ tk, FragmentTokenizer.new ts' = .ok tk := by
  obtain ⟨_, _, _, ht, _, hsh, _, _⟩ := sync_inv hseq h
  have hts := hsh.tokenSet
  have fin : ∀ k s ts' i d, 0 < st.pairCounts.getD k 0 → PairText ts k s → ts.addToken s = .ok (ts', i) →
      Token.str s ∉ ts.tokens → addTokenBpe st = .ok (some (ts', d)) →
      ∃ a b s ts' i d, SeenPair st a b s ∧ Token.str s ∉ ts.tokens ∧
      addTokenBpe st = .ok (some (ts', d)) ∧ ts.addToken s = .ok (ts', i) ∧
      Tokenizable ts' ∧ SeqsInRange ts' ∧ ∃ tk, FragmentTokenizer.new ts' = .ok tk := by
    intro k s ts' i d hk hp ha hn hr
    have ht' := tokenizable_addToken ht hn ha
    refine ⟨_, _, s, ts', i, d, (seen_pairText hts hp hk).1, hn, hr, ha, ht',
      seqsInRange_addToken hseq ha, ?_⟩
    obtain ⟨tk, h, _⟩ := FragmentTokenizer.new_ok_of ht'
    exact ⟨tk, h⟩
  rcases bpe_cases hseq h with ⟨h0, h1⟩ | ⟨k, s, ts', i, hk, hp, _, _, ha, hn, _, hr⟩ |
      ⟨k, s, ts', i, hk, hp, _, _, ha, hn, _, hr⟩
  · left
    refine ⟨?_, h1⟩
    intro a b s hs
    have := (pairText_seen hts hs).2.2.2
    rw [h0] at this
    omega
  · exact .inr (fin k s ts' i _ hk hp ha hn hr)
  · exact .inr (fin k s ts' i _ hk hp ha hn hr)

-- the file "\n\na" and the bytes set: "\n\n" is added
example : ∃ st, tokenizeFileSync Example.bytes0 [[10, 10, 97]] none = .ok st ∧
    addTokenBpe st = .ok (some (Example.bytes1, 1)) := by
  obtain ⟨st, h1, _, _, h2⟩ := Example.step0
  exact ⟨st, h1, h2⟩

/-! ## C34 the most frequent admissible pair -/

/-- **C34**.  If some pair that was seen has a text without text after a blank line, then
`add_token_bpe` adds the text of such a pair and reports its count; no other such pair was seen more
often, and among those seen equally often it is the first one. -/
theorem C34_bpe_most_frequent (ts : TokenSet) (hseq : SeqsInRange ts) (samples : List Bytes)
    (n : Option Nat) (st : TokenStats) (h : tokenizeFileSync ts samples n = .ok st)
    (hex : ∃ a b s, SeenPair st a b s ∧ ¬ HasInnerBreak s) :
    ∃ a b s ts' i, SeenPair st a b s ∧ ¬ HasInnerBreak s ∧
      addTokenBpe st = .ok (some (ts', (pairCount st a b : Int))) ∧ ts.addToken s = .ok (ts', i) ∧
      ∀ a' b' s', SeenPair st a' b' s' → ¬ HasInnerBreak s' →
        pairCount st a' b' ≤ pairCount st a b ∧
        (pairCount st a' b' = pairCount st a b → PairBefore a b a' b') := by
  obtain ⟨_, _, _, ht, _, hsh, _, _⟩ := sync_inv hseq h
  have hts := hsh.tokenSet
  obtain ⟨a0, b0, s0, hs0, hv0⟩ := hex
  obtain ⟨p0, _, _, c0⟩ := pairText_seen hts hs0
  rcases bpe_cases hseq h with ⟨h0, h1⟩ | ⟨k, s, ts', i, hk, hp, hv, hb, ha, hn, _, hr⟩ |
      ⟨k, s, ts', i, hk, hp, hall, _, ha, hn, _, hr⟩
  · rw [h0] at c0; omega
  · obtain ⟨h2, h3⟩ := seen_pairText hts hp hk
    refine ⟨_, _, s, ts', i, h2, hv, by rw [h3]; exact hr, ha, ?_⟩
    intro a' b' s' hs' hv'
    obtain ⟨p1, e1, e2, c1⟩ := pairText_seen hts hs'
    have e3 : pairCount st a' b' = st.pairCounts.getD (a' * ts.tokens.length + b') 0 := by
      unfold pairCount; rw [hts]
    rw [h3, e3]
    rcases hb _ s' c1 p1 hv' with hlt | ⟨heq, hle⟩
    · exact ⟨by omega, fun he => by omega⟩
    · refine ⟨by omega, fun _ => ?_⟩
      have m1 := Nat.div_le_div_right (c := ts.tokens.length) hle
      rw [e1] at m1
      rcases Nat.lt_or_ge (k / ts.tokens.length) a' with hlt | hge
      · exact .inl hlt
      · refine .inr ⟨by omega, ?_⟩
        have d1 := Nat.div_add_mod k ts.tokens.length
        have e4 : k / ts.tokens.length = a' := by omega
        rw [e4, Nat.mul_comm] at d1
        omega
  · exact absurd (hall _ s0 c0 p0) hv0

-- the hypothesis holds for the file "\n\na": the pair "\n", "\n" was seen
example : ∃ st, tokenizeFileSync Example.bytes0 [[10, 10, 97]] none = .ok st ∧
    ∃ a b s, SeenPair st a b s ∧ ¬ HasInnerBreak s := by
  obtain ⟨st, h1, _, hc, _⟩ := Example.step0
  obtain ⟨_, _, _, _, _, hsh, _, _⟩ := sync_inv Example.bytes0_usable.inRange h1
  refine ⟨st, h1, 10, 10, [10, 10], ⟨by rw [hc]; decide, [10], [10], ?_, ?_, rfl⟩, ?_⟩
  · rw [hsh.tokenSet]; exact Example.bytes0_get 10
  · rw [hsh.tokenSet]; exact Example.bytes0_get 10
  · rintro ⟨u, x, v, e, _⟩
    have := congrArg List.length e
    simp at this
    omega

/-! ## C35 tokens and paragraphs -/

/-- **C35** (the part that holds).  If some pair that was seen has no text after a blank line, the
string added has none either.  Missing: the case in which all pairs seen have; see the next
theorems. -/
theorem C35_no_break_partial (ts : TokenSet) (hseq : SeqsInRange ts) (samples : List Bytes)
    (n : Option Nat) (st : TokenStats) (h : tokenizeFileSync ts samples n = .ok st)
    (hex : ∃ a b s, SeenPair st a b s ∧ ¬ HasInnerBreak s) (ts' : TokenSet) (d : Int)
    (hr : addTokenBpe st = .ok (some (ts', d)))
    (hold : ∀ s, Token.str s ∈ ts.tokens → ¬ HasInnerBreak s) :
    ∀ s, Token.str s ∈ ts'.tokens → ¬ HasInnerBreak s := by
  obtain ⟨a, b, s, ts'', i, _, hv, hr', ha, _⟩ := C34_bpe_most_frequent ts hseq samples n st h hex
  have e := Except.ok.inj (hr.symm.trans hr')
  simp only [Option.some.injEq, Prod.mk.injEq] at e
  obtain ⟨rfl, _⟩ := e
  intro t htm
  have hne : s ≠ [] := by rintro rfl; cases ha
  rw [addToken_eq ts s hne] at ha
  cases ha
  have htm' : Token.str t ∈ ts.tokens ++ [Token.str s] := htm
  rcases List.mem_append.1 htm' with hm | hm
  · exact hold t hm
  · simp at hm
    rw [hm]; exact hv

/-- **C35** (what happens otherwise).  If some pair was seen, but every pair seen has text after a
blank line, then a string with text after a blank line is added: the text of a pair that was seen
least often, with a reported count of 0. -/
theorem C35_fallback_adds_break (ts : TokenSet) (hseq : SeqsInRange ts) (samples : List Bytes)
    (n : Option Nat) (st : TokenStats) (h : tokenizeFileSync ts samples n = .ok st)
    (hex : ∃ a b s, SeenPair st a b s) (hall : ∀ a b s, SeenPair st a b s → HasInnerBreak s) :
    ∃ a b s ts' i, SeenPair st a b s ∧ HasInnerBreak s ∧ Token.str s ∉ ts.tokens ∧
      addTokenBpe st = .ok (some (ts', 0)) ∧ ts.addToken s = .ok (ts', i) ∧
      ∀ a' b' s', SeenPair st a' b' s' → pairCount st a b ≤ pairCount st a' b' := by
  obtain ⟨_, _, _, ht, _, hsh, _, _⟩ := sync_inv hseq h
  have hts := hsh.tokenSet
  obtain ⟨a0, b0, s0, hs0⟩ := hex
  obtain ⟨p0, _, _, c0⟩ := pairText_seen hts hs0
  rcases bpe_cases hseq h with ⟨h0, h1⟩ | ⟨k, s, ts', i, hk, hp, hv, hb, ha, hn, _, hr⟩ |
      ⟨k, s, ts', i, hk, hp, _, hmin, ha, hn, _, hr⟩
  · rw [h0] at c0; omega
  · exact absurd (hall _ _ _ (seen_pairText hts hp hk).1) hv
  · obtain ⟨h2, h3⟩ := seen_pairText hts hp hk
    refine ⟨_, _, s, ts', i, h2, hall _ _ _ h2, hn, hr, ha, ?_⟩
    intro a' b' s' hs'
    obtain ⟨_, _, _, c1⟩ := pairText_seen hts hs'
    rw [h3]
    have := hmin _ c1
    unfold pairCount
    rw [hts]; exact this

/-- **C35** is violated by the code: on a file with the three bytes "\n\na", starting from the set
of all bytes, two calls of `add_token_bpe` add a token with text after a blank line. -/
theorem C35_violated :
    ∃ ts0 ts1 ts2 st0 st1 d0 d1, newBytes .raw = .ok ts0 ∧
      tokenizeFileSync ts0 [[10, 10, 97]] none = .ok st0 ∧ addTokenBpe st0 = .ok (some (ts1, d0)) ∧
      tokenizeFileSync ts1 [[10, 10, 97]] none = .ok st1 ∧ addTokenBpe st1 = .ok (some (ts2, d1)) ∧
      ∃ s, Token.str s ∈ ts2.tokens ∧ Token.str s ∉ ts1.tokens ∧ HasInnerBreak s := by
  obtain ⟨st0, h1, _, _, h2⟩ := Example.step0
  obtain ⟨st1, h3, _, ts2, i, h4, h5⟩ := Example.step1
  refine ⟨_, _, ts2, st0, st1, _, _, newBytes_eq .raw, h1, h2, h3, h4, [10, 10, 97], ?_, ?_,
    [], 97, [], rfl, by decide⟩
  · rw [addToken_eq _ _ (by simp)] at h5
    cases h5
    show Token.str [10, 10, 97] ∈ Example.bytes1.tokens ++ [Token.str [10, 10, 97]]
    simp
  · intro hm
    rcases Example.bytes1_str hm with e | ⟨b, e⟩ <;> simp at e

-- the hypotheses of `C35_fallback_adds_break` hold in the second call
example : ∃ st, tokenizeFileSync Example.bytes1 [[10, 10, 97]] none = .ok st ∧
    (∃ a b s, SeenPair st a b s) ∧ ∀ a b s, SeenPair st a b s → HasInnerBreak s := by
  obtain ⟨st, h1, h2, ts2, i, h3, _⟩ := Example.step1
  refine ⟨st, h1, ?_, h2⟩
  rcases C33_bpe_new_string _ Example.bytes1_usable.inRange _ _ st h1 with ⟨_, h0⟩ | ⟨a, b, s, _, _, _, hs, _⟩
  · rw [h3] at h0; cases h0
  · exact ⟨a, b, s, hs⟩

/-! ## C42 the predicted saving of a pair -/

/-- **C42**.  If `add_token_bpe` reports a count of `d`, the same samples need at most
`total_tokens - d` tokens with the new set if the two tokens of the pair are different, and at most
`total_tokens - d/2` (`2 * new + d ≤ 2 * old`) if they are equal. -/
theorem C42_pair_saving (ts : TokenSet) (hseq : SeqsInRange ts) (samples : List Bytes)
    (n : Option Nat) (st : TokenStats) (h : tokenizeFileSync ts samples n = .ok st) (ts' : TokenSet)
    (d : Int) (hr : addTokenBpe st = .ok (some (ts', d))) :
    ∃ a b s i st', SeenPair st a b s ∧ ts.addToken s = .ok (ts', i) ∧
      0 ≤ d ∧ (d = pairCount st a b ∨ d = 0) ∧
      tokenizeFileSync ts' samples n = .ok st' ∧
      2 * (st'.totalTokens : Int) + d ≤ 2 * st.totalTokens ∧
      (a ≠ b → (st'.totalTokens : Int) + d ≤ st.totalTokens) := by
  obtain ⟨_, _, _, ht, _, hsh, _, _⟩ := sync_inv hseq h
  have hts := hsh.tokenSet
  rcases bpe_cases hseq h with ⟨h0, h1⟩ | ⟨k, s, ts'', i, hk, hp, hv, hb, ha, hn, _, hr'⟩ |
      ⟨k, s, ts'', i, hk, hp, _, _, ha, hn, _, hr'⟩
  · rw [h1] at hr; cases hr
  · have e := Except.ok.inj (hr.symm.trans hr')
    simp only [Option.some.injEq, Prod.mk.injEq] at e
    obtain ⟨rfl, rfl⟩ := e
    obtain ⟨h2, h3⟩ := seen_pairText hts hp hk
    obtain ⟨st', g1, g2, g3⟩ := pair_saving hseq h hk hp ha
    refine ⟨_, _, s, i, st', h2, ha, by omega, .inl (by rw [h3]), g1, by omega, ?_⟩
    intro hab
    have := g3 hab
    omega
  · have e := Except.ok.inj (hr.symm.trans hr')
    simp only [Option.some.injEq, Prod.mk.injEq] at e
    obtain ⟨rfl, rfl⟩ := e
    obtain ⟨h2, h3⟩ := seen_pairText hts hp hk
    obtain ⟨st', g1, g2, g3⟩ := pair_saving hseq h hk hp ha
    refine ⟨_, _, s, i, st', h2, ha, by omega, .inr rfl, g1, by omega, ?_⟩
    intro hab
    have := g3 hab
    omega

/-- **C42** (the saving is real).  Even when the reported count is 0, the new set needs strictly
fewer tokens. -/
theorem C42_pair_strict (ts : TokenSet) (hseq : SeqsInRange ts) (samples : List Bytes)
    (n : Option Nat) (st : TokenStats) (h : tokenizeFileSync ts samples n = .ok st) (ts' : TokenSet)
    (d : Int) (hr : addTokenBpe st = .ok (some (ts', d))) :
    ∃ st', tokenizeFileSync ts' samples n = .ok st' ∧ st'.totalTokens < st.totalTokens := by
  obtain ⟨_, _, _, ht, _, hsh, _, _⟩ := sync_inv hseq h
  rcases bpe_cases hseq h with ⟨h0, h1⟩ | ⟨k, s, ts'', i, hk, hp, hv, hb, ha, hn, _, hr'⟩ |
      ⟨k, s, ts'', i, hk, hp, _, _, ha, hn, _, hr'⟩
  · rw [h1] at hr; cases hr
  · have e := Except.ok.inj (hr.symm.trans hr')
    simp only [Option.some.injEq, Prod.mk.injEq] at e
    obtain ⟨rfl, rfl⟩ := e
    obtain ⟨st', g1, g2, g3⟩ := pair_saving hseq h hk hp ha
    exact ⟨st', g1, by omega⟩
  · have e := Except.ok.inj (hr.symm.trans hr')
    simp only [Option.some.injEq, Prod.mk.injEq] at e
    obtain ⟨rfl, rfl⟩ := e
    obtain ⟨st', g1, g2, g3⟩ := pair_saving hseq h hk hp ha
    exact ⟨st', g1, by omega⟩

-- "\n\na": three tokens become two; the pair is of equal tokens
example : ∃ st st', tokenizeFileSync Example.bytes0 [[10, 10, 97]] none = .ok st ∧ st.totalTokens = 3 ∧
    tokenizeFileSync Example.bytes1 [[10, 10, 97]] none = .ok st' ∧ st'.totalTokens ≤ 2 := by
  obtain ⟨st, h1, h2, _, h3⟩ := Example.step0
  obtain ⟨st', h4, h5⟩ := C42_pair_strict _ Example.bytes0_usable.inRange _ _ st h1 _ _ h3
  exact ⟨st, st', h1, h2, h4, by omega⟩

end Tokens.Props
