import Verif.Spec.Compare
import Verif.Proofs.Local
import Verif.Proofs.Reorder
import Verif.Props.Cuts
import Verif.Props.Local
import Verif.Proofs.Start
import Verif.Proofs.AddUp

/-!
# Property C130: comparing token sets

Read together with `Verif/Spec/Compare.lean`, `Verif/Spec/Cuts.lean` and `Verif/Spec/Local.lean`.
`TokenizeFile ts sampler n nthreads st`: `tokenize_file` with the set `ts` on the samples, on that many threads, can
return the statistics `st`.
-/

namespace Tokens.Props
open Tokens Spec TokenSet Batch Optimize

set_option linter.unusedVariables false

theorem covers_dominates {a b : TokenSet} (h : Covers b a) : Dominates a b := by
  intro p s hp
  cases p with
  | tok i =>
    have hm : s ∈ strTokens a := mem_strTokens.2 (List.mem_of_getElem? (Piece.string_tok.1 hp))
    exact h.token s hm
  | seq j =>
    obtain ⟨q, hq, rfl⟩ := Piece.string_seq.1 hp
    have := h.sequence q (List.mem_of_getElem? hq)
    unfold Writes at this
    simpa [Piece.output, hq] using this

theorem covered_sync {a b : TokenSet} (ha : SeqsInRange a) (hb : SeqsInRange b) (hc : Covers b a)
    {samples : List Bytes} {n n' : Option Nat} {x y : TokenStats}
    (hx : tokenizeFileSync a samples n = .ok x) (hy : tokenizeFileSync b samples n' = .ok y) :
    y.totalTokens ≤ x.totalTokens := by
  obtain ⟨_, _, _, _, w1, _, _, c1⟩ := sync_inv ha hx
  obtain ⟨_, _, _, _, w2, _, _, c2⟩ := sync_inv hb hy
  have := dominates_sum (covers_dominates hc) w1 w2 samples
  have e1 := c1 .total
  have e2 := c2 .total
  simp only [cnt] at e1 e2
  omega

/-- **C130** (comparing sets).  If whatever a token or a sequence of `a` stands for can be written with `b` as at most
as many tokens, then `b` never needs more tokens than `a`, for any data. -/
theorem C130_covered (a b : TokenSet) (ha : SeqsInRange a) (hb : SeqsInRange b) (hc : Covers b a)
    (sampler : SamplerData) (n n' : Option Nat) (nthreads nthreads' : Nat) (hN : 0 < nthreads) (hN' : 0 < nthreads')
    (x y : TokenStats) (hx : TokenizeFile a sampler n nthreads x) (hy : TokenizeFile b sampler n' nthreads' y) :
    y.totalTokens ≤ x.totalTokens :=
  covered_sync ha hb hc (C07_tokenize_file a ha sampler n nthreads hN x hx)
    (C07_tokenize_file b hb sampler n' nthreads' hN' y hy)

theorem writes_token {ts : TokenSet} {s : Bytes} (h : s ∈ strTokens ts) : Writes ts s 1 := by
  obtain ⟨i, hi⟩ := List.getElem?_of_mem (mem_strTokens.1 h)
  refine ⟨[.tok i], ?_, by simp [output, Piece.output]⟩
  have := Spells.cons (ps := []) (t := []) (Piece.string_tok.2 hi) .nil
  simpa using this

theorem writes_seq {ts : TokenSet} {q : Sequence} (h : q ∈ ts.sequences) : Writes ts q.string q.tokens.length := by
  obtain ⟨j, hj⟩ := List.getElem?_of_mem h
  refine ⟨[.seq j], ?_, by simp [output, Piece.output, hj]⟩
  have := Spells.cons (ps := []) (t := []) (Piece.string_seq.2 ⟨q, hj, rfl⟩) .nil
  simpa using this

theorem writes_mono {ts : TokenSet} {s : Bytes} {c d : Nat} (h : Writes ts s c) (hcd : c ≤ d) : Writes ts s d := by
  obtain ⟨ps, h1, h2⟩ := h
  exact ⟨ps, h1, Nat.le_trans h2 hcd⟩

/-- **C130** (more tokens).  A set that has all tokens of another one, and for each of its sequences a token or a
sequence that is not longer, never needs more tokens, whatever else it has. -/
theorem C130_superset (a b : TokenSet) (ha : SeqsInRange a) (hb : SeqsInRange b)
    (htok : ∀ s ∈ strTokens a, s ∈ strTokens b)
    (hseq : ∀ q ∈ a.sequences, q.tokens ≠ [] ∧
      (q.string ∈ strTokens b ∨ ∃ r ∈ b.sequences, r.string = q.string ∧ r.tokens.length ≤ q.tokens.length))
    (sampler : SamplerData) (n n' : Option Nat) (nthreads nthreads' : Nat) (hN : 0 < nthreads) (hN' : 0 < nthreads')
    (x y : TokenStats) (hx : TokenizeFile a sampler n nthreads x) (hy : TokenizeFile b sampler n' nthreads' y) :
    y.totalTokens ≤ x.totalTokens := by
  refine C130_covered a b ha hb ⟨fun s hs => writes_token (htok s hs), fun q hq => ?_⟩ sampler n n' nthreads nthreads'
    hN hN' x y hx hy
  obtain ⟨h1, h2 | ⟨r, h2, h3, h4⟩⟩ := hseq q hq
  · exact writes_mono (writes_token h2) (List.length_pos_iff.2 h1)
  · exact h3 ▸ writes_mono (writes_seq h2) h4

/-- **C130** (types).  Of two sets of the types bits1, bits2, bits4 and bytes with the same texts as tokens (or more in
the second), the one of the type that takes fewer tokens for a byte without a token never needs more tokens. -/
theorem C130_types (a b : TokenSet) (ha : BitsFamily a) (hb : BitsFamily b ∨ BytesFamily b)
    (hty : tokensPerByte b.tokenType ≤ tokensPerByte a.tokenType)
    (htok : ∀ s ∈ strTokens a, s ∈ strTokens b)
    (sampler : SamplerData) (n n' : Option Nat) (nthreads nthreads' : Nat) (hN : 0 < nthreads) (hN' : 0 < nthreads')
    (x y : TokenStats) (hx : TokenizeFile a sampler n nthreads x) (hy : TokenizeFile b sampler n' nthreads' y) :
    y.totalTokens ≤ x.totalTokens := by
  have hfb : Family b := by
    rcases hb with h | h
    · exact .inl h
    · exact .inr (.inl h)
  have hk := family_bytesWithin hfb
  refine C130_covered a b ha.toUsable.inRange (Tokens.Family.usable hfb).inRange
    ⟨fun s hs => writes_token (htok s hs), fun q hq => ?_⟩ sampler n n' nthreads nthreads' hN hN' x y hx hy
  obtain ⟨len, h1, h2⟩ := ha.params
  obtain ⟨c, ds, e, h3, _⟩ := h2 (q.string, listed a q) (List.mem_map.2 ⟨q, hq, rfl⟩)
  rw [Prod.mk.injEq] at e
  have hl : q.tokens.length = len := by
    have := congrArg List.length e.2
    simp [listed] at this
    omega
  have ht : tokensPerByte a.tokenType = len := by
    unfold bitsParams at h1
    unfold tokensPerByte
    cases hh : a.tokenType <;> rw [hh] at h1 <;> simp at h1 <;> simp <;> omega
  obtain ⟨ps, g1, g2⟩ := spells_bytes hk [c]
  rw [e.1]
  refine ⟨ps, g1, Nat.le_trans g2 ?_⟩
  simp only [List.length_singleton, Nat.one_mul]
  omega

/-! ### Taking a token away -/

/-- The token that is missing is in no sequence. -/
theorem without_unlisted {ts ts1 : TokenSet} {s : Bytes} (h : Without ts s ts1) (hd : ts.tokens.Nodup) {idx : Nat}
    (hs : ts.tokens[idx]? = some (.str s)) : ∀ q ∈ ts.sequences, idx ∉ q.tokens := by
  intro q hq hm
  have h1 : (q.string, listed ts q) ∈ meaning ts := List.mem_map.2 ⟨q, hq, rfl⟩
  obtain ⟨r, hr, e⟩ := List.mem_map.1 (h.sequences.mem_iff.2 h1)
  rw [Prod.mk.injEq] at e
  have h2 : some (Token.str s) ∈ listed ts q := List.mem_map.2 ⟨idx, hm, hs⟩
  rw [← e.2] at h2
  obtain ⟨k, _, hk⟩ := List.mem_map.1 h2
  have := h.tokens.mem_iff.1 (List.mem_of_getElem? hk)
  exact (hd.not_mem_erase) this

/-- Write every use of the missing token in another way. -/
theorem without_spells {ts ts1 : TokenSet} {s : Bytes} (h : Without ts s ts1) (hd : ts.tokens.Nodup) {idx c : Nat}
    (hs : ts.tokens[idx]? = some (.str s)) (hseq : s ∉ ts.sequences.map (·.string)) (hw : Writes ts1 s c)
    {ps : List Piece} {t : Bytes} (hp : Spells ts ps t) :
    ∃ qs, Spells ts1 qs t ∧ (output ts1 qs).length + (output ts ps).count idx ≤
      (output ts ps).length + (output ts ps).count idx * c := by
  have hun := without_unlisted h hd hs
  induction hp with
  | nil => exact ⟨[], .nil, by simp [output]⟩
  | @cons p x ps t hp _ ih =>
    obtain ⟨qs, g1, g2⟩ := ih
    have e1 : (output ts (p :: ps)).length = (p.output ts).length + (output ts ps).length := output_cons ts p ps
    have e2 : (output ts (p :: ps)).count idx = (p.output ts).count idx + (output ts ps).count idx := by
      simp [output]
    by_cases hx : x = s
    · subst hx
      have hpi : p = .tok idx := by
        cases p with
        | tok i =>
          rw [Piece.string_tok] at hp
          obtain ⟨l1, k1⟩ := List.getElem?_eq_some_iff.1 hp
          obtain ⟨l2, k2⟩ := List.getElem?_eq_some_iff.1 hs
          rw [(hd.getElem_inj_iff (hi := l1) (hj := l2)).1 (k1.trans k2.symm)]
        | seq j =>
          obtain ⟨q, hq, rfl⟩ := Piece.string_seq.1 hp
          exact absurd (List.mem_map.2 ⟨q, List.mem_of_getElem? hq, rfl⟩) hseq
      subst hpi
      obtain ⟨rs, w1, w2⟩ := hw
      refine ⟨rs ++ qs, w1.append g1, ?_⟩
      rw [output_append, e1, e2]
      simp only [Piece.output, List.length_singleton, List.count_singleton_self]
      rw [Nat.add_mul]
      omega
    · obtain ⟨q, hq⟩ := (without_embeds h).1 p x hp hx
      refine ⟨q :: qs, .cons (by rw [← hq.1]; exact hp) g1, ?_⟩
      have e3 : (p.output ts).count idx = 0 := by
        rw [List.count_eq_zero]
        cases p with
        | tok i =>
          simp only [Piece.output, List.mem_singleton]
          intro e
          subst e
          rw [Piece.string_tok, hs] at hp
          exact hx (Token.str.inj (Option.some.inj hp)).symm
        | seq j =>
          obtain ⟨r, hr, rfl⟩ := Piece.string_seq.1 hp
          simp only [Piece.output, hr]
          exact hun r (List.mem_of_getElem? hr)
      rw [output_cons, e1, e2, ← hq.2.1, e3, Nat.zero_add]
      omega

theorem without_sync {ts ts1 : TokenSet} {s : Bytes} (h : Without ts s ts1) (hr : SeqsInRange ts)
    (hr1 : SeqsInRange ts1) (hd : ts.tokens.Nodup) {idx c : Nat}
    (hs : ts.tokens[idx]? = some (.str s)) (hw : Writes ts1 s c)
    {samples : List Bytes} {n n' : Option Nat} {x y : TokenStats}
    (hx : tokenizeFileSync ts samples n = .ok x) (hy : tokenizeFileSync ts1 samples n' = .ok y) :
    x.totalTokens ≤ y.totalTokens ∧
      y.totalTokens + x.tokenCounts.getD idx 0 ≤ x.totalTokens + x.tokenCounts.getD idx 0 * c := by
  obtain ⟨_, d1, _, t1, w1, _, _, c1⟩ := sync_inv hr hx
  obtain ⟨_, d2, _, _, w2, _, _, c2⟩ := sync_inv hr1 hy
  have e1 := c1 .total
  have e2 := c2 .total
  have e3 := c1 (.tok idx)
  simp only [cnt] at e1 e2 e3
  have hlt : idx < ts.tokens.length := (List.getElem?_eq_some_iff.1 hs).1
  have hns : s ∉ ts.sequences.map (·.string) := by
    have := t1.nodup
    unfold pieceStrings at this
    intro hm
    exact (List.disjoint_of_nodup_append this) (mem_strTokens.2 (List.mem_of_getElem? hs)) hm
  constructor
  · rw [e1, e2]
    have hdom : Dominates ts1 ts := by
      intro p u hp
      obtain ⟨q, hq⟩ := (without_embeds h).2 p u hp trivial
      refine ⟨[q], ?_, ?_⟩
      · have := Spells.cons (ps := []) (t := []) (hq.1.symm.trans hp) .nil
        simpa using this
      · rw [hq.2.1]; simp [output]
    exact dominates_sum hdom w2 w1 samples
  · rw [e1, e2, e3]
    clear e1 e2 e3 c1 c2 hx hy
    induction samples with
    | nil => simp
    | cons t l ih =>
      simp only [workSum_cons]
      obtain ⟨ps, hl, hps⟩ := w1.seg t
      obtain ⟨rs, hl', hrs⟩ := w2.seg t
      rw [hps, hrs]
      simp only [segCount, if_pos hlt]
      obtain ⟨qs, g1, g2⟩ := without_spells h hd hs hns hw (LongestLast.optimal hl).1
      have := (LongestLast.optimal hl').2 qs g1
      rw [Nat.add_mul]
      omega

/-- **C130** (the value of a token).  Take a token away whose text can be written with `c` of the other tokens: the
number of output tokens does not become smaller, and it grows by at most `c - 1` for each time that the token was used. -/
theorem C130_remove (ts ts1 : TokenSet) (s : Bytes) (h : Without ts s ts1) (hr : SeqsInRange ts)
    (hr1 : SeqsInRange ts1) (hd : ts.tokens.Nodup) (idx c : Nat) (hs : ts.tokens[idx]? = some (.str s))
    (hw : Writes ts1 s c)
    (sampler : SamplerData) (n n' : Option Nat) (nthreads nthreads' : Nat) (hN : 0 < nthreads) (hN' : 0 < nthreads')
    (x y : TokenStats) (hx : TokenizeFile ts sampler n nthreads x) (hy : TokenizeFile ts1 sampler n' nthreads' y) :
    x.totalTokens ≤ y.totalTokens ∧
      y.totalTokens + x.tokenCounts.getD idx 0 ≤ x.totalTokens + x.tokenCounts.getD idx 0 * c :=
  without_sync h hr hr1 hd hs hw (C07_tokenize_file ts hr sampler n nthreads hN x hx)
    (C07_tokenize_file ts1 hr1 sampler n' nthreads' hN' y hy)

/-- **C130** (two halves).  If its text is that of two other tokens one after the other, the number of output tokens
grows by at most the number of times that the token was used. -/
theorem C130_halves (ts ts1 : TokenSet) (u v : Bytes) (h : Without ts (u ++ v) ts1) (hr : SeqsInRange ts)
    (hr1 : SeqsInRange ts1) (hd : ts.tokens.Nodup) (idx : Nat) (hs : ts.tokens[idx]? = some (.str (u ++ v)))
    (hu : u ∈ strTokens ts1) (hv : v ∈ strTokens ts1)
    (sampler : SamplerData) (n n' : Option Nat) (nthreads nthreads' : Nat) (hN : 0 < nthreads) (hN' : 0 < nthreads')
    (x y : TokenStats) (hx : TokenizeFile ts sampler n nthreads x) (hy : TokenizeFile ts1 sampler n' nthreads' y) :
    x.totalTokens ≤ y.totalTokens ∧ y.totalTokens ≤ x.totalTokens + x.tokenCounts.getD idx 0 := by
  obtain ⟨ps, h1, h2⟩ := writes_token hu
  obtain ⟨qs, h3, h4⟩ := writes_token hv
  have hw : Writes ts1 (u ++ v) 2 := ⟨ps ++ qs, h1.append h3, by rw [output_append]; omega⟩
  have := C130_remove ts ts1 (u ++ v) h hr hr1 hd idx 2 hs hw sampler n n' nthreads nthreads' hN hN' x y hx hy
  omega

/-- **C130** (any token).  Taking away any token of a set of one of the types costs, for each time that it was used, at
most what it takes to write its bytes one by one. -/
theorem C130_remove_any (ts ts1 : TokenSet) (s : Bytes) (h : Without ts s ts1) (hf : Family ts) (hf1 : Family ts1)
    (idx : Nat) (hs : ts.tokens[idx]? = some (.str s))
    (sampler : SamplerData) (n n' : Option Nat) (nthreads nthreads' : Nat) (hN : 0 < nthreads) (hN' : 0 < nthreads')
    (x y : TokenStats) (hx : TokenizeFile ts sampler n nthreads x) (hy : TokenizeFile ts1 sampler n' nthreads' y) :
    x.totalTokens ≤ y.totalTokens ∧
      y.totalTokens + x.tokenCounts.getD idx 0 ≤
        x.totalTokens + x.tokenCounts.getD idx 0 * (s.length * tokensPerByte ts.tokenType) := by
  have hw : Writes ts1 s (s.length * tokensPerByte ts.tokenType) := by
    rw [← h.header.tokenType]
    exact spells_bytes (family_bytesWithin hf1) s
  exact C130_remove ts ts1 s h (Tokens.Family.usable hf).inRange (Tokens.Family.usable hf1).inRange
    (Tokens.Family.usable hf).distinct idx _ hs hw sampler n n' nthreads nthreads' hN hN' x y hx hy

/-- **C130** (a token that is not used is worth nothing).  Take away a token of a set of one of the types that is not
used in the output for the data: the number of output tokens stays the same. -/
theorem C130_unused (ts ts1 : TokenSet) (s : Bytes) (h : Without ts s ts1) (hf : Family ts) (hr1 : SeqsInRange ts1)
    (idx : Nat) (hs : ts.tokens[idx]? = some (.str s))
    (sampler : SamplerData) (n n' : Option Nat) (nthreads nthreads' : Nat) (hN : 0 < nthreads) (hN' : 0 < nthreads')
    (x y : TokenStats) (hx : TokenizeFile ts sampler n nthreads x) (hy : TokenizeFile ts1 sampler n' nthreads' y)
    (hz : x.tokenCounts.getD idx 0 = 0) : y.totalTokens = x.totalTokens := by
  have hu := Tokens.Family.usable hf
  have hy' := C07_tokenize_file ts1 hr1 sampler n' nthreads' hN' y hy
  obtain ⟨_, _, _, t1, _⟩ := sync_inv hr1 hy'
  obtain ⟨ps, p0⟩ := exists_longestLast t1 hr1 s
  have p1 := (LongestLast.optimal p0).1
  have := C130_remove ts ts1 s h hu.inRange hr1 hu.distinct idx _ hs ⟨ps, p1, Nat.le_refl _⟩ sampler n n' nthreads
    nthreads' hN hN' x y hx hy
  rw [hz] at this
  omega

/-- **C130** (what does not change without a token that is not used).  The statistics stay the same altogether:
the same totals, and the same counts of every other token, sequence and pair of tokens. -/
theorem C130_unused_same (ts ts1 : TokenSet) (s : Bytes) (h : Without ts s ts1) (hf : Family ts)
    (hr1 : SeqsInRange ts1) (idx : Nat) (hs : ts.tokens[idx]? = some (.str s))
    (sampler : SamplerData) (n : Option Nat) (nthreads nthreads' : Nat) (hN : 0 < nthreads) (hN' : 0 < nthreads')
    (x y : TokenStats) (hx : TokenizeFile ts sampler n nthreads x) (hy : TokenizeFile ts1 sampler n nthreads' y)
    (hz : x.tokenCounts.getD idx 0 = 0) : SameStats x y := by
  have hu := Tokens.Family.usable hf
  have hx' := C07_tokenize_file ts hu.inRange sampler n nthreads hN x hx
  have hy' := C07_tokenize_file ts1 hr1 sampler n nthreads' hN' y hy
  obtain ⟨_, _, _, t2, _⟩ := sync_inv hr1 hy'
  have q2 := (List.nodup_append.1 t2.nodup).2.1
  obtain ⟨_, d1, _, t1, w1, _, _, c1⟩ := sync_inv hu.inRange hx'
  have hlt : idx < ts.tokens.length := (List.getElem?_eq_some_iff.1 hs).1
  have hns : s ∉ ts.sequences.map (·.string) := by
    have := t1.nodup
    unfold pieceStrings at this
    intro hm
    exact (List.disjoint_of_nodup_append this) (mem_strTokens.2 (List.mem_of_getElem? hs)) hm
  have hzero : ∀ t ∈ sampler.samples, d1 t (.tok idx) = 0 := by
    have e := c1 (.tok idx)
    simp only [cnt] at e
    rw [hz] at e
    intro t ht
    have : d1 t (.tok idx) ∈ sampler.samples.map (fun t => d1 t (.tok idx)) := List.mem_map.2 ⟨t, ht, rfl⟩
    have hle : ∀ (l : List Bytes), t ∈ l → d1 t (.tok idx) ≤ workSum d1 l (.tok idx) := by
      intro l hl
      induction l with
      | nil => simp at hl
      | cons a l ih =>
        rw [workSum_cons]
        rcases List.mem_cons.1 hl with rfl | hl
        · omega
        · have := ih hl; omega
    have := hle _ ht
    omega
  refine stats_alike hu.inRange hr1 hu.distinct (h.tokens.nodup_iff.2 (hu.distinct.erase _)) ?_ hx' hy'
  intro t ht ps hps
  obtain ⟨ps', hps', e⟩ := w1.seg t
  have := longestLast_unique t1 hps' hps
  subst this
  have hc : (output ts ps').count idx = 0 := by
    have := hzero t ht
    rw [e] at this
    simpa only [segCount, if_pos hlt] using this
  obtain ⟨qs, g1, g2⟩ := longestLast_embed (without_embeds h).1 (without_embeds h).2 hps (by
    intro p hp u hpu hus
    subst hus
    cases p with
    | tok i =>
      rw [Piece.string_tok] at hpu
      have hi : i = idx := by
        obtain ⟨k1, e1⟩ := List.getElem?_eq_some_iff.1 hpu
        obtain ⟨k2, e2⟩ := List.getElem?_eq_some_iff.1 hs
        exact (List.Nodup.getElem_inj_iff hu.distinct).1 (e1.trans e2.symm)
      subst hi
      have : i ∈ output ts ps' := List.mem_flatMap.2 ⟨_, hp, by simp [Piece.output]⟩
      exact absurd this (List.count_eq_zero.1 hc)
    | seq j =>
      rw [Piece.string_seq] at hpu
      obtain ⟨q, hq, e⟩ := hpu
      exact hns (List.mem_map.2 ⟨q, List.mem_of_getElem? hq, e⟩))
  exact ⟨qs, g1, pieces_alike (fun e he => h.sequences.mem_iff.2 he) q2 (LongestLast.optimal hps).1 g2⟩

/-- **C130** (no token of a result is used too rarely).  Let the optimizer return a set of the size asked for.  Take a
token of two or more bytes away whose text can be written with `c` of the other tokens, and tokenize the data with what
is left.  Then no pair of neighbours seen there (the text of which has no text after a blank line) is more frequent than
`2 * (c - 1)` times the number of uses of the token. -/
theorem C130_used_often (env : Env) (he : EnvOk env) (ty : TokenType) (p : Processing) (ntokens : Nat)
    (pre : Option TokenSet) (hp : CanStart ty p ntokens pre) (st : TokenStats) (w : World)
    (h : OptimizeTokenset env ntokens p ty pre (.ok st) w) (hlen : st.tokenSet.tokens.length = ntokens)
    (idx : Nat) (s : Bytes) (hs : st.tokenSet.tokens[idx]? = some (.str s)) (h2 : 2 ≤ s.length) (ts1 : TokenSet)
    (hw : Without st.tokenSet s ts1) (c : Nat) (hc : Writes ts1 s c) (st1 : TokenStats) (h1 : Fresh env ts1 st1)
    (a b : Nat) (t : Bytes) (hab : SeenPair st1 a b t) (ht : ¬ HasInnerBreak t) :
    pairCount st1 a b + 2 * st.tokenCounts.getD idx 0 ≤ 2 * (st.tokenCounts.getD idx 0 * c) := by
  have hmem : s ∈ longTokens st.tokenSet := mem_longTokens.2 ⟨List.mem_of_getElem? hs, by omega⟩
  have hb := C69_pair_bound env he ty p ntokens pre hp st w h hlen s hmem ts1 hw st1 h1 a b t hab ht
  obtain ⟨hwk, _, full, hfresh, hset, hst⟩ := workable_sorted_stuck he hp h
  obtain ⟨Fam, lo, hi, B, hl, _⟩ := workable_behaves hwk
  have hu := Tokens.Family.usable (B.family hl.fam)
  obtain ⟨_, _, _, f4, _, f6⟩ := fresh_facts B hl.fam hfresh
  rw [hset] at f4 f6
  obtain ⟨ts', q1, q2⟩ := h1
  have hss := (sort_sameSet q1).1
  have hr1' := sort_inRange q1
  have hw' : Without st.tokenSet s ts' := by
    refine ⟨⟨?_, ?_, ?_, ?_⟩, hss.tokens.trans hw.tokens, hss.sequences.trans hw.sequences⟩
    · rw [hss.header.nExt, hw.header.nExt]
    · rw [hss.header.tokenType, hw.header.tokenType]
    · rw [hss.header.processing, hw.header.processing]
    · rw [hss.header.splitParagraphs, hw.header.splitParagraphs]
  have hc' : Writes ts' s c := by
    obtain ⟨ps, g1, g2⟩ := hc
    obtain ⟨qs, g3⟩ := (sameSet_embeds hss.symm).list g1 (fun _ _ _ _ => trivial)
    exact ⟨qs, samePieces_spells g3 g1, by rw [← samePieces_length g3]; exact g2⟩
  have := (without_sync hw' f6 hr1' hu.distinct hs hc' f4 q2).2
  have e1 : st.totalTokens = full.totalTokens := by rw [hst]; rfl
  have e2 : st.tokenCounts = full.tokenCounts := by rw [hst]; rfl
  rw [e2]
  omega

/-! ### Examples -/

theorem made_bits {ts : TokenSet} (hm : Made ts) (h : ts.tokenType ≠ .bytes) (h' : ts.tokenType ≠ .bytesHuff) :
    BitsFamily ts := by
  rcases C16_made_family ts hm with g | g | g
  · exact g
  · exact absurd g.type h
  · exact absurd g.type h'

-- the sets of types bits1 and bits4 with the only texts "ab" and "c"
example : ∃ a b, BitsFamily a ∧ BitsFamily b ∧ tokensPerByte b.tokenType < tokensPerByte a.tokenType ∧
    strTokens a = [[97, 98], [99]] ∧ strTokens b = [[97, 98], [99]] ∧
    ∀ samples, ∃ x y, tokenizeFileSync a samples none = .ok x ∧ tokenizeFileSync b samples none = .ok y := by
  have key : ∀ base : TokenSet, Made base → strTokens base = [] → base.tokenType ≠ .bytes →
      base.tokenType ≠ .bytesHuff → ∃ ts, BitsFamily ts ∧ ts.tokenType = base.tokenType ∧
        strTokens ts = [[97, 98], [99]] := by
    intro base hb h0 h1 h2
    have n1 : Token.str [97, 98] ∉ base.tokens := fun h => by
      have := mem_strTokens.2 h
      rw [h0] at this
      exact absurd this (by simp)
    obtain ⟨t1, a1, ht1, e1⟩ : ∃ t1, base.addToken [97, 98] = .ok (t1, base.tokens.length) ∧
        t1.tokens = base.tokens ++ [Token.str [97, 98]] ∧ t1.tokenType = base.tokenType :=
      ⟨_, addToken_eq base [97, 98] (by simp), rfl, rfl⟩
    have m1 := Made.add hb n1 a1
    have s1 : strTokens t1 = [[97, 98]] := by
      unfold strTokens
      rw [ht1, List.filterMap_append]
      show strTokens base ++ _ = _
      rw [h0]
      rfl
    have n2 : Token.str [99] ∉ t1.tokens := fun h => by
      have := mem_strTokens.2 h
      rw [s1] at this
      exact absurd this (by decide)
    have a2 := addToken_eq t1 [99] (by simp)
    have m2 := Made.add m1 n2 a2
    refine ⟨_, made_bits m2 (by simpa [e1] using h1) (by simpa [e1] using h2), by simpa using e1, ?_⟩
    show List.filterMap _ (t1.tokens ++ _) = _
    rw [List.filterMap_append]
    show strTokens t1 ++ _ = _
    rw [s1]
    rfl
  have ext : ∀ n ty code p split, strTokens (bitsSet n ty code p split) = [] := by
    intro n ty code p split
    show List.filterMap tokenText (extTokens n) = []
    unfold extTokens
    rw [List.filterMap_map, List.filterMap_eq_nil_iff]
    intro x _
    rfl
  obtain ⟨a, ha, ta, sa⟩ := key _ (.bits1 (newBits1_eq .raw false)) (ext ..) (by simp [bitsSet]) (by simp [bitsSet])
  obtain ⟨b, hb, tb, sb⟩ := key _ (.bits4 (newBits4_eq .raw false)) (ext ..) (by simp [bitsSet]) (by simp [bitsSet])
  refine ⟨a, b, ha, hb, ?_, sa, sb, fun samples => ?_⟩
  · rw [ta, tb]; decide
  · obtain ⟨x, hx⟩ := sync_exists ha.accepted ha.inRange samples none
    obtain ⟨y, hy⟩ := sync_exists hb.accepted hb.inRange samples none
    exact ⟨x, y, hx, hy⟩

-- the bytes set with the token "ab", without it
example : ∃ ts ts1, Without ts [97, 98] ts1 ∧ Family ts ∧ Family ts1 ∧ ts.tokens[256]? = some (.str ([97] ++ [98])) ∧
    [97] ∈ strTokens ts1 ∧ [98] ∈ strTokens ts1 ∧
    ∀ samples, ∃ x y, tokenizeFileSync ts samples none = .ok x ∧ tokenizeFileSync ts1 samples none = .ok y := by
  have hf : Family (bytesSet .raw) := .inr (.inl (bytesSet_family .raw))
  have hsz := bytesSet_size .raw
  have hstr : strTokens (bytesSet .raw) = byteStrings := filterMap_str byteStrings
  have hmem : ∀ b : UInt8, [b] ∈ strTokens (bytesSet .raw) := fun b =>
    hstr ▸ mem_byteStrings.2 ⟨b, rfl⟩
  have hno : Token.str [97, 98] ∉ (bytesSet .raw).tokens := fun h => by
    have := mem_strTokens.2 h
    rw [hstr] at this
    obtain ⟨b, e⟩ := mem_byteStrings.1 this
    simp at e
  have hm : Made (bytesSet .raw) := .bytes (newBytes_eq .raw)
  have hq : (bytesSet .raw).sequences = [] := rfl
  generalize bytesSet .raw = base at *
  obtain ⟨ts, a1, h1, h2, h3⟩ : ∃ t1, base.addToken [97, 98] = .ok (t1, base.tokens.length) ∧
      t1.tokens = base.tokens ++ [Token.str [97, 98]] ∧ SameHeader base t1 ∧ t1.sequences = [] :=
    ⟨_, addToken_eq base [97, 98] (by simp), rfl, ⟨rfl, rfl, rfl, rfl⟩, by rw [hq]; rfl⟩
  have m1 := Made.add hm hno a1
  have hf1 := C16_made_family _ m1
  refine ⟨ts, base, ⟨h2, ?_, ?_⟩, hf1, hf, ?_, hmem 97, hmem 98, fun samples => ?_⟩
  · rw [h1, List.erase_append_right _ hno]
    simp
  · unfold meaning
    simp [hq, h3]
  · rw [h1, ← hsz, List.getElem?_concat_length]
    rfl
  · obtain ⟨x, hx⟩ := sync_exists (Tokens.Family.usable hf1).accepted (Tokens.Family.usable hf1).inRange samples none
    obtain ⟨y, hy⟩ := sync_exists (Tokens.Family.usable hf).accepted (Tokens.Family.usable hf).inRange samples none
    exact ⟨x, y, hx, hy⟩

theorem no_count_of_short {ts : TokenSet} (hr : SeqsInRange ts) (hq : ts.sequences = []) {idx : Nat} {s : Bytes}
    (hs : ts.tokens[idx]? = some (.str s)) {samples : List Bytes} {n : Option Nat} {x : TokenStats}
    (hx : tokenizeFileSync ts samples n = .ok x) (hshort : (samples.map (·.length)).sum < s.length) :
    x.tokenCounts.getD idx 0 = 0 := by
  obtain ⟨_, h2, h3, _⟩ := C05_accounting ts hr samples n x hx
  have hlt : idx < ts.tokens.length := (List.getElem?_eq_some_iff.1 hs).1
  have hle := le_sumTo (f := fun i => textLen ts i * x.tokenCounts.getD i 0) hlt
  have e : textLen ts idx = s.length := by simp [textLen, hs]
  have z : ∀ f, sumTo ts.sequences.length f = 0 := by intro f; rw [hq]; rfl
  rw [z, z, Nat.add_zero, Nat.add_zero, h2] at h3
  rw [e, h3] at hle
  apply Classical.byContradiction
  intro h0
  have := Nat.le_mul_of_pos_right s.length (Nat.pos_of_ne_zero h0)
  omega

-- the bytes set with the token "ab", without it, and data in which the token is not used
example : ∃ ts ts1, Without ts [97, 98] ts1 ∧ Family ts ∧ SeqsInRange ts1 ∧
    ts.tokens[256]? = some (.str [97, 98]) ∧
    ∃ x y, tokenizeFileSync ts [[99]] none = .ok x ∧ tokenizeFileSync ts1 [[99]] none = .ok y ∧
      x.tokenCounts.getD 256 0 = 0 := by
  have hf : Family (bytesSet .raw) := .inr (.inl (bytesSet_family .raw))
  have hsz := bytesSet_size .raw
  have hstr : strTokens (bytesSet .raw) = byteStrings := filterMap_str byteStrings
  have hno : Token.str [97, 98] ∉ (bytesSet .raw).tokens := fun h => by
    have := mem_strTokens.2 h
    rw [hstr] at this
    obtain ⟨b, e⟩ := mem_byteStrings.1 this
    simp at e
  have hm : Made (bytesSet .raw) := .bytes (newBytes_eq .raw)
  have hq : (bytesSet .raw).sequences = [] := rfl
  generalize bytesSet .raw = base at *
  obtain ⟨ts, a1, h1, h2, h3⟩ : ∃ t1, base.addToken [97, 98] = .ok (t1, base.tokens.length) ∧
      t1.tokens = base.tokens ++ [Token.str [97, 98]] ∧ SameHeader base t1 ∧ t1.sequences = [] :=
    ⟨_, addToken_eq base [97, 98] (by simp), rfl, ⟨rfl, rfl, rfl, rfl⟩, by rw [hq]; rfl⟩
  have hf1 := C16_made_family _ (Made.add hm hno a1)
  have hi : ts.tokens[256]? = some (.str [97, 98]) := by rw [h1, ← hsz, List.getElem?_concat_length]
  have u1 := Tokens.Family.usable hf1
  have u2 := Tokens.Family.usable hf
  obtain ⟨x, hx⟩ := sync_exists u1.accepted u1.inRange [[99]] none
  obtain ⟨y, hy⟩ := sync_exists u2.accepted u2.inRange [[99]] none
  refine ⟨ts, base, ⟨h2, ?_, ?_⟩, hf1, u2.inRange, hi, x, y, hx, hy,
    no_count_of_short u1.inRange h3 hi hx (by simp)⟩
  · rw [h1, List.erase_append_right _ hno]
    simp
  · unfold meaning
    simp [hq, h3]

end Tokens.Props
