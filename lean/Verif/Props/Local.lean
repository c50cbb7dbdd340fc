import Verif.Proofs.Local
import Verif.Proofs.Origin
import Verif.Props.Optimum
import Verif.Props.Bpe

/-!
# Properties C69, C70, C71: the set that the optimizer returns is a local optimum; where its tokens come from

Read together with `Verif/Spec/Local.lean` (`Without`), `Verif/Spec/Optimizing.lean` (`Fresh`),
`Verif/Spec/Pairs.lean` (`SeenPair`, `pairCount`) and `Verif/Spec/ByteUse.lean`.
-/

namespace Tokens.Props
open Tokens Spec TokenSet Batch OptimizeBytes Optimize

/-! ## C69 every long token earns its place -/

/-- **C69** (the value of a token).  Let the optimizer return a set of the size asked for.  Take one of
its tokens of two or more bytes away and tokenize the data with what is left: the number of output
tokens grows by at least half of the count of any pair of neighbours that was then seen (the text of
which has no text after a blank line). -/
theorem C69_pair_bound (env : Env) (he : EnvOk env) (ty : TokenType) (p : Processing) (ntokens : Nat)
    (pre : Option TokenSet) (hp : CanStart ty p ntokens pre) (st : TokenStats) (w : World)
    (h : OptimizeTokenset env ntokens p ty pre (.ok st) w) (hlen : st.tokenSet.tokens.length = ntokens)
    (s : Bytes) (hs : s ∈ longTokens st.tokenSet) (ts1 : TokenSet) (hw : Without st.tokenSet s ts1)
    (st1 : TokenStats) (h1 : Fresh env ts1 st1) (a b : Nat) (t : Bytes) (hab : SeenPair st1 a b t)
    (ht : ¬ HasInnerBreak t) : 2 * st.totalTokens + pairCount st1 a b ≤ 2 * st1.totalTokens := by
  obtain ⟨hwk, hstuck, full, hfresh, hset, hst⟩ := workable_sorted_stuck he hp h
  obtain ⟨Fam, lo, hi, B, hl, _⟩ := workable_behaves hwk
  obtain ⟨f1, f2, f3, f4, f5⟩ := stuck_offer B hl.fam hstuck hlen hs hw h1
  obtain ⟨a', b', t', ts', i, g1, g2, g3, g4, g5⟩ := C34_bpe_most_frequent st1.tokenSet f3 _ _ st1 f2
    ⟨a, b, t, hab, ht⟩
  obtain ⟨_, _, _, _, st', _, _, k1, _, k2, k3, _⟩ := C42_pair_saving st1.tokenSet f3 _ _ st1 f2 _ _ g3
  obtain ⟨st'', m1, m2⟩ := C42_pair_strict st1.tokenSet f3 _ _ st1 f2 _ _ g3
  have := Except.ok.inj (k2.symm.trans m1)
  subst this
  have r := (stuck_pair B hl.fam hstuck hlen hs hw h1 g3 ⟨st', k2, k3, m2⟩ k1).1
  rw [fresh_tot hfresh] at r
  have e : st.totalTokens = full.totalTokens := by rw [hst]; rfl
  have := (g5 a b t hab ht).1
  rw [e]
  omega

/-- **C69** (no token is wasted).  Let the optimizer return a set of the size asked for.  Then every
token of two or more bytes is used in the output for the data, unless in no sample two tokens are next
to each other (so that no longer token could be made). -/
theorem C69_all_used (env : Env) (he : EnvOk env) (ty : TokenType) (p : Processing) (ntokens : Nat)
    (pre : Option TokenSet) (hp : CanStart ty p ntokens pre) (st : TokenStats) (w : World)
    (h : OptimizeTokenset env ntokens p ty pre (.ok st) w) (hlen : st.tokenSet.tokens.length = ntokens)
    (idx : Nat) (s : Bytes) (hs : st.tokenSet.tokens[idx]? = some (.str s)) (h2 : 2 ≤ s.length) :
    0 < st.tokenCounts.getD idx 0 ∨
    ∀ x ∈ env.sampler.samples, ∀ ps, LongestLast st.tokenSet ps x →
      ∀ u v a b, ps ≠ u ++ .tok a :: .tok b :: v := by
  obtain ⟨hwk, hstuck, full, hfresh, hset, hst⟩ := workable_sorted_stuck he hp h
  obtain ⟨Fam, lo, hi, B, hl, _⟩ := workable_behaves hwk
  have hF := B.family hl.fam
  have hu := Tokens.Family.usable hF
  by_cases hc : 0 < st.tokenCounts.getD idx 0
  · exact .inl hc
  right
  have hmem : s ∈ longTokens st.tokenSet := mem_longTokens.2 ⟨List.mem_of_getElem? hs, by omega⟩
  -- the set without `s`
  obtain ⟨i', ts1, r1, r2, r3, r4, r5⟩ := remove_long B hl.fam hmem
  obtain ⟨hh, hpm, hm, hr', _⟩ := removeToken_spec hu.inRange r2
  obtain ⟨hlt, hget'⟩ := List.getElem?_eq_some_iff.1 (findToken_some r1).1
  have hw : Without st.tokenSet s ts1 := by
    refine ⟨hh, ?_, by rw [hm]⟩
    rw [← hget', hu.distinct.erase_getElem i' hlt]
    exact hpm
  have hu1 := Tokens.Family.usable (B.family r3)
  obtain ⟨ts1', q1⟩ := (sort_ok_iff ts1).2 hr'
  have hss := (sort_sameSet q1).1
  have hr1' := sort_inRange q1
  have hw' : Without st.tokenSet s ts1' := by
    refine ⟨⟨?_, ?_, ?_, ?_⟩, hss.tokens.trans hw.tokens, hss.sequences.trans hw.sequences⟩
    · rw [hss.header.nExt, hh.nExt]
    · rw [hss.header.tokenType, hh.tokenType]
    · rw [hss.header.processing, hh.processing]
    · rw [hss.header.splitParagraphs, hh.splitParagraphs]
  have hu1' := usable_sameSet hu1 hss hr1'
  obtain ⟨st1, q2⟩ := sync_exists hu1'.accepted hr1' env.sampler.samples env.initialSize
  have h1 : Fresh env ts1 st1 := ⟨ts1', q1, q2⟩
  obtain ⟨tk1, d1, _, ht1, hw1, hsh1, _, hc1⟩ := sync_inv hr1' q2
  have est1 : st1.tokenSet = ts1' := hsh1.tokenSet
  -- the tokenization does not use `s`
  obtain ⟨_, _, _, f4, _, f6⟩ := fresh_facts B hl.fam hfresh
  rw [hset] at f4 f6
  obtain ⟨tk, d, _, htk, hwk', hsh, _, hcn⟩ := sync_inv f6 f4
  have hidx : idx < st.tokenSet.tokens.length := (List.getElem?_eq_some_iff.1 hs).1
  have hz : workSum d env.sampler.samples (.tok idx) = 0 := by
    rw [← hcn]
    show full.tokenCounts.getD idx 0 = 0
    have e : st.tokenCounts = full.tokenCounts := by rw [hst]; rfl
    rw [← e]; omega
  have unused : ∀ x ∈ env.sampler.samples, ∀ ps, LongestLast st.tokenSet ps x → Piece.tok idx ∉ ps := by
    intro x hx ps hps hmem
    have h0 : d x (.tok idx) = 0 := sum_zero (List.mem_map.2 ⟨x, hx, rfl⟩) hz
    obtain ⟨qs, g1, g2⟩ := hwk'.seg x
    have := longestLast_unique htk hps g1
    subst this
    rw [g2] at h0
    have h0 : (output st.tokenSet ps).count idx = 0 := by simpa [segCount, hidx] using h0
    rw [List.count_eq_zero] at h0
    exact h0 (List.mem_flatMap.2 ⟨_, hmem, by simp [Piece.output]⟩)
  have inj : ∀ p : Piece, p.string st.tokenSet = some s → p = .tok idx := fun p hp =>
    piece_unique htk.nodup hp (Piece.string_tok.2 hs)
  obtain ⟨em1, em2⟩ := without_embeds hw'
  have same : ∀ x ∈ env.sampler.samples, ∀ ps, LongestLast st.tokenSet ps x → ∃ qs, LongestLast ts1' qs x ∧
      List.Forall₂ (SamePiece st.tokenSet ts1') ps qs := by
    intro x hx ps hps
    refine longestLast_embed em1 em2 hps ?_
    rintro q hq y hy rfl
    rw [inj q hy] at hq
    exact unused x hx ps hps hq
  have htot : st1.totalTokens = full.totalTokens := by
    have e1 : st1.totalTokens = _ := hc1 .total
    have e2 : full.totalTokens = _ := hcn .total
    rw [e1, e2]
    unfold workSum
    congr 1
    apply List.map_congr_left
    intro x hx
    obtain ⟨ps, g1, g2⟩ := hwk'.seg x
    obtain ⟨qs, g3, g4⟩ := hw1.seg x
    obtain ⟨qs', g5, g6⟩ := same x hx ps g1
    have := longestLast_unique ht1 g5 g3
    subst this
    rw [g2, g4]
    exact (samePieces_length g6).symm
  have hnone : ∀ k, st1.pairCounts.getD k 0 = 0 := by
    have hf2 : tokenizeFileSync st1.tokenSet env.sampler.samples env.initialSize = .ok st1 := by
      rw [est1]; exact q2
    have hf6 : SeqsInRange st1.tokenSet := by rw [est1]; exact hr1'
    by_contra hne
    have hb : ∃ t dd, addTokenBpe st1 = .ok (some (t, dd)) := by
      rcases bpe_cases hf6 hf2 with ⟨h0, _⟩ | ⟨_, _, t, _, _, _, _, _, _, _, _, h0⟩ |
        ⟨_, _, t, _, _, _, _, _, _, _, _, h0⟩
      · exact absurd h0 hne
      · exact ⟨_, _, h0⟩
      · exact ⟨_, _, h0⟩
    obtain ⟨t, dd, hb⟩ := hb
    obtain ⟨_, _, _, _, st', _, _, k1, _, k2, k3, _⟩ := C42_pair_saving st1.tokenSet hf6 _ _ st1 hf2 _ _ hb
    obtain ⟨st'', m1, m2⟩ := C42_pair_strict st1.tokenSet hf6 _ _ st1 hf2 _ _ hb
    have := Except.ok.inj (k2.symm.trans m1)
    subst this
    have r := (stuck_pair B hl.fam hstuck hlen hmem hw h1 hb ⟨st', k2, k3, m2⟩ k1).2
    rw [fresh_tot hfresh] at r
    omega
  intro x hx ps hps u v a b e
  obtain ⟨qs, g1, g2⟩ := same x hx ps hps
  subst e
  obtain ⟨qu, qv, hqu, hqv, rfl⟩ : ∃ l1 l2, List.Forall₂ (SamePiece st.tokenSet ts1') u l1 ∧
      List.Forall₂ (SamePiece st.tokenSet ts1') (.tok a :: .tok b :: v) l2 ∧ qs = l1 ++ l2 := by
    refine ⟨qs.take u.length, qs.drop u.length, ?_, ?_, (List.take_append_drop _ _).symm⟩
    · have := List.forall₂_take u.length g2; simpa using this
    · have := List.forall₂_drop u.length g2; simpa using this
  cases hqv with
  | cons hx1 hrest =>
    cases hrest with
    | cons hx2 hrest =>
      obtain ⟨i, rfl⟩ := hx1.2.2.1 ⟨_, rfl⟩
      obtain ⟨j, rfl⟩ := hx2.2.2.1 ⟨_, rfl⟩
      exact no_adjacent hr1' q2 hnone hx g1 _ _ i j rfl

-- type bytes with 257 tokens: the result has exactly one token of two or more bytes
example : ∃ st w s, CanStart .bytes .raw 257 none ∧ OptimizeTokenset smallEnv 257 .raw .bytes none (.ok st) w ∧
    st.tokenSet.tokens.length = 257 ∧ s ∈ longTokens st.tokenSet ∧
    ∃ ts1 st1, Without st.tokenSet s ts1 ∧ Fresh smallEnv ts1 st1 := by
  have hc : CanStart .bytes .raw 257 none := by show Admissible .bytes 257; unfold Admissible; omega
  obtain ⟨st, w, h⟩ := optimize_ends smallEnv smallEnv_ok .bytes .raw 257 hc
  obtain ⟨hwk, _, _⟩ := workable_sorted_stuck smallEnv_ok hc h
  obtain ⟨Fam, lo, hi, B, hl, _, _, hhi⟩ := workable_behaves' hwk
  have hsz := size_of B hl.fam
  have hb := (B.bounds hl.fam).2
  rw [hhi] at hb
  have hb : shortCount st.tokenSet ≤ 256 := hb
  have hlong : ∃ s, s ∈ longTokens st.tokenSet := by
    rcases C49_budget_used smallEnv smallEnv_ok .bytes .raw 257 none hc st w h with h | ⟨_, h⟩ | ⟨h, _⟩
    · cases e : longTokens st.tokenSet with
      | nil => rw [e] at hsz; simp at hsz; omega
      | cons s _ => exact ⟨s, by simp⟩
    · exact ⟨[97, 98, 97, 98], mem_longTokens.2 ⟨h _ (by simp [smallEnv]) (by simp), by decide⟩⟩
    · cases h
  have hlen : st.tokenSet.tokens.length = 257 := by
    have h1 : 256 ≤ shortCount st.tokenSet := by
      have hlo := (B.bounds hl.fam).1
      have := B.family hl.fam
      rcases this with h' | h' | h'
      · obtain ⟨_, hp, _⟩ := h'.params; rw [hwk.type] at hp; simp [bitsParams] at hp
      · exact Nat.le_of_eq (bytes_all h').symm
      · have := h'.type; rw [hwk.type] at this; simp at this
    obtain ⟨s, hs⟩ := hlong
    have := List.length_pos_of_mem hs
    have := hwk.size
    omega
  obtain ⟨s, hs⟩ := hlong
  obtain ⟨i', ts1, r1, r2, r3, r4, r5⟩ := remove_long B hl.fam hs
  have hu := Tokens.Family.usable (B.family hl.fam)
  obtain ⟨hh, hpm, hm, hr', _⟩ := removeToken_spec hu.inRange r2
  obtain ⟨hlt, hget'⟩ := List.getElem?_eq_some_iff.1 (findToken_some r1).1
  obtain ⟨st1, hf1⟩ := fresh_exists smallEnv (B.family r3)
  refine ⟨st, w, s, hc, h, hlen, hs, ts1, st1, ⟨hh, ?_, by rw [hm]⟩, hf1⟩
  rw [← hget', hu.distinct.erase_getElem i' hlt]
  exact hpm

/-- **C69** (the value of a byte token).  If the set returned has more ext and single-byte tokens than the
least possible, let the byte optimizer choose again with one token less and tokenize the data: the
number of output tokens grows by at least half of the count of any pair of neighbours that was then seen
(the text of which has no text after a blank line). -/
theorem C69_byte_kept (env : Env) (he : EnvOk env) (ty : TokenType) (p : Processing) (ntokens : Nat)
    (pre : Option TokenSet) (hp : CanStart ty p ntokens pre) (st : TokenStats) (w : World)
    (h : OptimizeTokenset env ntokens p ty pre (.ok st) w) (hlen : st.tokenSet.tokens.length = ntokens)
    (hmore : st.tokenSet.minBytesExtTokens < shortCount st.tokenSet) (ts1 : TokenSet)
    (hts1 : optimizerFor ty st (shortCount st.tokenSet - 1) = .ok ts1)
    (st1 : TokenStats) (h1 : Fresh env ts1 st1) (a b : Nat) (t : Bytes) (hab : SeenPair st1 a b t)
    (ht : ¬ HasInnerBreak t) : 2 * st.totalTokens + pairCount st1 a b ≤ 2 * st1.totalTokens := by
  obtain ⟨hwk, hstuck, full, hfresh, hset, hst⟩ := workable_sorted_stuck he hp h
  obtain ⟨Fam, lo, hi, B, hl, _⟩ := workable_behaves hwk
  obtain ⟨f1, f2, f3, f4, f5, f6⟩ := fresh_facts B hl.fam hfresh
  have hlo := B.min_lo hl.fam
  have hb := B.bounds hl.fam
  have hsz := size_of B hl.fam
  have f5' : CountsFit st := by rw [hst]; exact ⟨f5.tokens, f5.seqs⟩
  have hFts1 : Fam ts1 := by
    obtain ⟨x, e1, e2, _⟩ := B.opt (st := st) (n := shortCount st.tokenSet - 1) hl.fam f5' (by omega) (by omega)
    have := Except.ok.inj (hts1.symm.trans e1)
    rw [this]; exact e2
  obtain ⟨g1, g2, g3, g4, g5, g6⟩ := fresh_facts B hFts1 h1
  obtain ⟨a', b', t', ts', i, k1, k2, k3, k4, k5⟩ := C34_bpe_most_frequent st1.tokenSet g6 _ _ st1 g4
    ⟨a, b, t, hab, ht⟩
  obtain ⟨_, _, _, _, st', _, _, m1, _, m2, m3, _⟩ := C42_pair_saving st1.tokenSet g6 _ _ st1 g4 _ _ k3
  have hFts' : Fam ts' := by
    rcases bpe_ok B g1 g4 with c | ⟨t', d', _, c, h, _⟩
    · rw [k3] at c; cases c
    · have := Except.ok.inj (k3.symm.trans c)
      simp only [Option.some.injEq, Prod.mk.injEq] at this
      rw [this.1]; exact h
  obtain ⟨st2, hst2⟩ := fresh_exists env (B.family hFts')
  have r := hstuck.trade hlen hmore full ts1 st1 ts' _ st2 hfresh (by rw [← hst]; exact hts1) h1 k3 hst2
  rw [← fresh_tot hst2, tot_sync (B.family hFts') m2] at r
  have e : st.totalTokens = full.totalTokens := by rw [hst]; rfl
  have := (k5 a b t hab ht).1
  rw [e]
  omega

/-! ## C70 the bytes that have tokens -/

/-- **C70** (the best choice of bytes).  For the bits types, no other set of the same type with at most as
many byte tokens needs fewer output tokens for the single bytes that the tokenization of the data with
the set returned is left with. -/
theorem C70_bytes_best (env : Env) (he : EnvOk env) (ty : TokenType) (q : Nat × Nat)
    (hty : bitsParams ty = some q) (p : Processing) (ntokens : Nat)
    (pre : Option TokenSet) (hp : CanStart ty p ntokens pre) (st : TokenStats) (w : World)
    (h : OptimizeTokenset env ntokens p ty pre (.ok st) w) (other : TokenSet) (ho : BitsFamily other)
    (hot : other.tokenType = ty) (hlen : (byteTokens other).length ≤ (byteTokens st.tokenSet).length) :
    bytesTotal st.tokenSet st ≤ bytesTotal other st := by
  obtain ⟨hwk, hstuck, full, hfresh, hset, hst⟩ := workable_sorted_stuck he hp h
  obtain ⟨Fam, lo, hi, B, hl, hback, _⟩ := workable_behaves hwk
  obtain ⟨f1, f2, f3, f4, f5, f6⟩ := fresh_facts B hl.fam hfresh
  have hn := C49_bits_exact env he ty q hty p ntokens pre hp st w h
  have hsz := size_of B hl.fam
  have hbits : BitsFamily st.tokenSet := by
    rcases hwk.family with h' | h' | h'
    · exact h'
    · have := h'.type; rw [hwk.type] at this; subst this; simp [bitsParams] at hty
    · have := h'.type; rw [hwk.type] at this; subst this; simp [bitsParams] at hty
  have hopt : optimizerFor ty = simple := by cases ty <;> simp [bitsParams] at hty <;> rfl
  have f5' : CountsFit st := by rw [hst]; exact ⟨f5.tokens, f5.seqs⟩
  have hk : (byteTokens st.tokenSet).length ≤ 256 := by
    have h1 := (pieceBytes hbits.accepted).1
    have := (List.subperm_of_subset h1 (fun x _ => mem_allBytes x)).length_le
    rwa [allBytes_length] at this
  have en : ntokens - (longTokens st.tokenSet).length = st.tokenSet.nExt + (byteTokens st.tokenSet).length := by
    have : shortCount st.tokenSet = st.tokenSet.nExt + (byteTokens st.tokenSet).length := rfl
    omega
  obtain ⟨ts1, e1, e2, e3, e4, e5, _⟩ := C29_simple_size st _ hk hbits f5'
  have hF1 : Family ts1 := .inl e2
  obtain ⟨st1, hst1⟩ := fresh_exists env hF1
  have r := hstuck.bytes full ts1 st1 hfresh (by rw [← hst, en, hopt]; exact e1) hst1
  have hu1 := Tokens.Family.usable hF1
  rw [hset] at f4 f6
  obtain ⟨st', s1, s2⟩ := byte_saving f6 f4 hu1.accepted hu1.inRange
    (fun x hx => by have := family_seqLen hF1 x hx; intro e; rw [e] at this; simp at this)
    (fun x hx => family_single hwk.family x hx)
    (fun x hx hm => by
      have : x ∈ longTokens ts1 := by rw [e5]; exact mem_longTokens.2 ⟨hm, hx⟩
      exact (mem_longTokens.1 this).1)
  rw [← fresh_tot hst1, tot_sync hF1 s1] at r
  have c1 : ∀ x, bytesTotal x full = bytesTotal x st := by
    intro x; rw [hst]; rfl
  rw [c1, c1] at s2
  have := C30_simple_optimal st _ hk ts1 other hbits f5' e1 ho (by rw [hot, hwk.type]) hlen
  omega

/-- **C70** (the most frequent bytes).  For the bits types, if byte `b` has a token of its own in the set
returned and byte `c` has not, then the tokenization of the data has at least as many single bytes `b` as
single bytes `c`. -/
theorem C70_most_frequent (env : Env) (he : EnvOk env) (ty : TokenType) (q : Nat × Nat)
    (hty : bitsParams ty = some q) (p : Processing) (ntokens : Nat)
    (pre : Option TokenSet) (hp : CanStart ty p ntokens pre) (st : TokenStats) (w : World)
    (h : OptimizeTokenset env ntokens p ty pre (.ok st) w) (b c : UInt8)
    (hb : Token.str [b] ∈ st.tokenSet.tokens) (hc : Token.str [c] ∉ st.tokenSet.tokens) :
    byteUses st c ≤ byteUses st b := by
  obtain ⟨hwk, hstuck, full, hfresh, hset, hst⟩ := workable_sorted_stuck he hp h
  obtain ⟨Fam, lo, hi, B, hl, hback, _⟩ := workable_behaves hwk
  obtain ⟨f1, f2, f3, f4, f5, f6⟩ := fresh_facts B hl.fam hfresh
  have hbits : BitsFamily st.tokenSet := by
    rcases hwk.family with h' | h' | h'
    · exact h'
    · have := h'.type; rw [hwk.type] at this; subst this; simp [bitsParams] at hty
    · have := h'.type; rw [hwk.type] at this; subst this; simp [bitsParams] at hty
  have f5' : CountsFit st := by rw [hst]; exact ⟨f5.tokens, f5.seqs⟩
  have hnd := (pieceBytes hbits.accepted).1
  have hk : (byteTokens st.tokenSet).length ≤ 256 := by
    have := (List.subperm_of_subset hnd (fun x _ => mem_allBytes x)).length_le
    rwa [allBytes_length] at this
  obtain ⟨ts1, e1, e2, e3, e4, e5, _, e6⟩ := simple_spec hbits f5' hk
  have best := C70_bytes_best env he ty q hty p ntokens pre hp st w h ts1 e2
    (by rw [e3.tokenType, hwk.type]) (by omega)
  obtain ⟨len, hpar, _⟩ := hbits.params
  have t1 := bits_total hbits hpar st
  have t2 := bits_total e2 (by rw [e3.tokenType, e3.nExt]; exact hpar) st
  have hmb : b ∈ byteTokens st.tokenSet := mem_byteTokens.2 hb
  have hmc : c ∉ byteTokens st.tokenSet := fun h => hc (mem_byteTokens.1 h)
  have t3 := top_sum (u := byteUses st) (byCount (byteUses st)) (byCount_pairwise _)
    (c :: (byteTokens st.tokenSet).erase b) (byteTokens st.tokenSet).length
    (List.nodup_cons.2 ⟨fun h => hmc (List.mem_of_mem_erase h), hnd.erase b⟩)
    (fun x _ => (byCount_perm _).mem_iff.2 (mem_allBytes x)) (by
      rw [List.length_cons, List.length_erase_of_mem hmb]
      have := List.length_pos_of_mem hmb
      omega)
  rw [← e6] at t3
  have hs : ((byteTokens st.tokenSet).map (byteUses st)).sum =
      byteUses st b + (((byteTokens st.tokenSet).erase b).map (byteUses st)).sum := by
    rw [perm_sum ((List.perm_cons_erase hmb).map _)]
    simp
  have hlen2 : 2 ≤ len := by
    unfold bitsParams at hpar
    split at hpar <;> simp at hpar <;> omega
  have t4 : (len - 1) * ((byteTokens ts1).map (byteUses st)).sum ≤
      (len - 1) * ((byteTokens st.tokenSet).map (byteUses st)).sum := by omega
  have t5 := Nat.le_of_mul_le_mul_left t4 (by omega)
  simp only [List.map_cons, List.sum_cons] at t3
  omega

/-! ## C71 no invented tokens -/

/-- **C71**.  Every token of two or more bytes in the set that the optimizer returns is a part of one of
the samples, or a token of the set that it was given.  The same holds for every set that it writes to a
file on the way. -/
theorem C71_from_data (env : Env) (he : EnvOk env) (ty : TokenType) (p : Processing) (ntokens : Nat)
    (pre : Option TokenSet) (hp : CanStart ty p ntokens pre) (st : TokenStats) (w : World)
    (h : OptimizeTokenset env ntokens p ty pre (.ok st) w) :
    (∀ s, 2 ≤ s.length → Token.str s ∈ st.tokenSet.tokens →
      (∃ x ∈ env.sampler.samples, s <:+: x) ∨ ∃ ts0, pre = some ts0 ∧ Token.str s ∈ ts0.tokens) ∧
    ∀ f ∈ w.saved, ∃ ts, savedFile ts = .ok f ∧ ∀ s, 2 ≤ s.length → Token.str s ∈ ts.tokens →
      (∃ x ∈ env.sampler.samples, s <:+: x) ∨ ∃ ts0, pre = some ts0 ∧ Token.str s ∈ ts0.tokens := by
  have key : ∀ ts w0, Workable ty p ntokens ts → Reached env w0 → w0.saved = [] →
      Impl env (optimizerFor ty) ntokens ts w0 (.ok st) w →
      (∀ s ∈ longTokens ts, ∃ ts0, pre = some ts0 ∧ Token.str s ∈ ts0.tokens) →
      (∀ s, 2 ≤ s.length → Token.str s ∈ st.tokenSet.tokens →
        (∃ x ∈ env.sampler.samples, s <:+: x) ∨ ∃ ts0, pre = some ts0 ∧ Token.str s ∈ ts0.tokens) ∧
      ∀ f ∈ w.saved, ∃ ts, savedFile ts = .ok f ∧ ∀ s, 2 ≤ s.length → Token.str s ∈ ts.tokens →
        (∃ x ∈ env.sampler.samples, s <:+: x) ∨ ∃ ts0, pre = some ts0 ∧ Token.str s ∈ ts0.tokens := by
    intro ts w0 h1 h2 h3 h4 hl0
    obtain ⟨Fam, lo, hi, B, hl, _⟩ := workable_behaves h1
    obtain ⟨g1, l, g2, g3⟩ := impl_grown B he hl (reached_ok h2) h4
    have conv : ∀ t, GrownFrom env ts t → ∀ s, 2 ≤ s.length → Token.str s ∈ t.tokens →
        (∃ x ∈ env.sampler.samples, s <:+: x) ∨ ∃ ts0, pre = some ts0 ∧ Token.str s ∈ ts0.tokens := by
      intro t ht s hs hm
      rcases ht s (mem_longTokens.2 ⟨hm, by omega⟩) with h | h
      · exact .inr (hl0 s h)
      · exact .inl h
    refine ⟨conv _ g1, ?_⟩
    intro f hf
    rw [g2, h3, List.nil_append] at hf
    obtain ⟨t, ht1, ht2⟩ := g3 f hf
    exact ⟨t, ht2, conv t ht1⟩
  cases h with
  | run h1 h2 =>
    cases pre with
    | none =>
      obtain ⟨ts, e, hg, hw, hs⟩ := start_run he hp h1
      cases e
      exact key _ _ hg.work hw hs h2 (by rw [hg.noLong]; simp)
    | some ts =>
      cases h1
      exact key _ _ hp (reached_new env []) rfl h2 (fun s hs => ⟨_, rfl, (mem_longTokens.1 hs).1⟩)

/-- **C71**, from scratch: with an empty sampler the optimizer returns no tokens of two or more bytes. -/
theorem C71_no_data (env : Env) (he : EnvOk env) (hempty : ∀ x ∈ env.sampler.samples, x = [])
    (ty : TokenType) (p : Processing) (ntokens : Nat) (hp : Admissible ty ntokens) (st : TokenStats)
    (w : World) (h : OptimizeTokenset env ntokens p ty none (.ok st) w) :
    ∀ s, Token.str s ∈ st.tokenSet.tokens → s.length < 2 := by
  intro s hs
  by_contra hlen
  rcases (C71_from_data env he ty p ntokens none hp st w h).1 s (by omega) hs with ⟨x, hx, hi⟩ | ⟨_, e, _⟩
  · rw [hempty x hx] at hi
    have := hi.length_le
    rw [List.length_nil] at this
    omega
  · cases e

-- a run from scratch with a long token (257 tokens of type bytes): the token is part of "abab" or "\n\200"
example : ∃ st w, OptimizeTokenset smallEnv 257 .raw .bytes none (.ok st) w ∧
    ∀ s, 2 ≤ s.length → Token.str s ∈ st.tokenSet.tokens → s <:+: [97, 98, 97, 98] ∨ s <:+: [10, 200] := by
  have hc : CanStart .bytes .raw 257 none := by show Admissible .bytes 257; unfold Admissible; omega
  obtain ⟨st, w, h⟩ := optimize_ends smallEnv smallEnv_ok .bytes .raw 257 hc
  refine ⟨st, w, h, fun s hs hm => ?_⟩
  rcases (C71_from_data smallEnv smallEnv_ok .bytes .raw 257 none hc st w h).1 s hs hm with
    ⟨x, hx, hi⟩ | ⟨_, e, _⟩
  · simp only [smallEnv, List.mem_cons, List.not_mem_nil, or_false] at hx
    rcases hx with rfl | rfl
    · exact .inl hi
    · exact .inr hi
  · cases e

/-- The data "a". -/
def oneByte : Env := ⟨⟨[[97]], 1⟩, none, 4⟩

-- C70: with 17 tokens for the four-bit encoding and the data "a", one byte has a token and another has
-- none; and there is a set of the same family to compare with
example : ∃ st w b c, CanStart .bits4 .raw 17 none ∧ OptimizeTokenset oneByte 17 .raw .bits4 none (.ok st) w ∧
    Token.str [b] ∈ st.tokenSet.tokens ∧ Token.str [c] ∉ st.tokenSet.tokens ∧
    ∃ other, BitsFamily other ∧ other.tokenType = .bits4 ∧
      (byteTokens other).length ≤ (byteTokens st.tokenSet).length := by
  have hok : EnvOk oneByte := ⟨by decide, .inl (by decide)⟩
  have hc : CanStart .bits4 .raw 17 none := by show Admissible .bits4 17; unfold Admissible; omega
  obtain ⟨st, w, h⟩ := optimize_ends oneByte hok .bits4 .raw 17 hc
  obtain ⟨hwk, _, _⟩ := workable_sorted_stuck hok hc h
  obtain ⟨Fam, lo, hi, B, hl, _⟩ := workable_behaves hwk
  have hsz := size_of B hl.fam
  have hlen := C49_bits_exact oneByte hok .bits4 _ rfl .raw 17 none hc st w h
  have hnolong : longTokens st.tokenSet = [] := by
    rw [List.eq_nil_iff_forall_not_mem]
    intro s hs
    obtain ⟨h1, h2⟩ := mem_longTokens.1 hs
    rcases (C71_from_data oneByte hok .bits4 .raw 17 none hc st w h).1 s (by omega) h1 with ⟨x, hx, hi⟩ | ⟨_, e, _⟩
    · simp only [oneByte, List.mem_singleton] at hx
      subst hx
      have := hi.length_le
      rw [List.length_singleton] at this
      omega
    · cases e
  have hfam : BitsFamily st.tokenSet := by
    rcases hwk.family with h' | h' | h'
    · exact h'
    · have := h'.type; rw [hwk.type] at this; cases this
    · have := h'.type; rw [hwk.type] at this; cases this
  have hext : st.tokenSet.nExt = 16 := by
    obtain ⟨_, hp, _⟩ := hfam.params
    rw [hwk.type] at hp
    simp only [bitsParams, Option.some.injEq, Prod.mk.injEq] at hp
    exact hp.1.symm
  have hone : (byteTokens st.tokenSet).length = 1 := by
    have : shortCount st.tokenSet = st.tokenSet.nExt + (byteTokens st.tokenSet).length := rfl
    rw [hnolong] at hsz
    simp only [List.length_nil] at hsz
    omega
  have hex : ∃ c : UInt8, Token.str [c] ∉ st.tokenSet.tokens := by
    by_contra hall
    have hall : ∀ c, Token.str [c] ∈ st.tokenSet.tokens := by
      intro c
      by_contra hx
      exact hall ⟨c, hx⟩
    have := (List.subperm_of_subset (l₂ := byteTokens st.tokenSet) allBytes_nodup
      (fun x _ => mem_byteTokens.2 (hall x))).length_le
    rw [allBytes_length] at this
    omega
  obtain ⟨c, hcn⟩ := hex
  cases hb : byteTokens st.tokenSet with
  | nil => rw [hb] at hone; simp at hone
  | cons b _ =>
    refine ⟨st, w, b, c, hc, h, mem_byteTokens.1 (by rw [hb]; simp), hcn, st.tokenSet, hfam, hwk.type, ?_⟩
    rw [hb]

end Tokens.Props
