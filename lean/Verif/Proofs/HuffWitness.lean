import Verif.Proofs.Start
import Verif.Proofs.BpeExample

/-! A pretrained byteshuff set that gets worse: all 256 byte tokens, on data of single bytes. -/

set_option linter.unusedSimpArgs false
set_option linter.unusedVariables false

namespace Tokens
open Spec TokenSet Batch OptimizeBytes

namespace Optimize

/-- A data set of 256 samples of one byte each. -/
def singleEnv : Env := ⟨⟨allBytes.map (fun b => [b]), 256⟩, none, 1⟩

/-- All byte tokens and nothing else, as a byteshuff set. -/
def allBytesHuff : TokenSet := { bytesSet .raw with tokenType := .bytesHuff }

theorem allBytesHuff_usable : Usable allBytesHuff :=
  have h := (bytesSet_family .raw).toUsable
  ⟨⟨h.accepted.nodup, h.accepted.nonempty, h.accepted.bytes⟩, h.inRange, h.distinct, h.few, h.exts⟩

theorem allBytesHuff_family : HuffFamily allBytesHuff :=
  ⟨allBytesHuff_usable, rfl, (by intro e he; cases he), List.nodup_nil, (by intro e he; cases he)⟩

theorem allBytesHuff_short : shortCount allBytesHuff = 256 := by
  have h := bytes_all (bytesSet_family .raw)
  have e1 : allBytesHuff.tokens = (bytesSet .raw).tokens := rfl
  have e2 : allBytesHuff.nExt = (bytesSet .raw).nExt := rfl
  unfold shortCount byteTokens at h ⊢
  rw [e1, e2]
  exact h

theorem allBytesHuff_size : allBytesHuff.tokens.length = 256 :=
  (show allBytesHuff.tokens.length = (bytesSet .raw).tokens.length from rfl).trans (bytesSet_size .raw)

theorem allBytesHuff_workable : Workable .bytesHuff .raw 257 allBytesHuff where
  family := .inr (.inr allBytesHuff_family)
  type := rfl
  processing := rfl
  size := by rw [allBytesHuff_size]; decide
  bits := by intro q hq; cases hq
  huff := by intro _; rw [allBytesHuff_short]; decide

/-- A byte is spelled by one piece. -/
theorem single_piece {ts : TokenSet} (h : Usable ts) {ps : List Piece} {b : UInt8} (hs : Spells ts ps [b]) :
    ∃ p, ps = [p] ∧ p.string ts = some [b] := by
  have hne : ∀ (p : Piece) s, p.string ts = some s → s ≠ [] := by
    intro p s hp
    refine h.accepted.nonempty s ?_
    unfold pieceStrings
    cases p with
    | tok i =>
      rw [Piece.string_tok] at hp
      exact List.mem_append.2 (.inl (mem_strTokens.2 (List.mem_of_getElem? hp)))
    | seq i =>
      rw [Piece.string_seq] at hp
      obtain ⟨q, hq, rfl⟩ := hp
      exact List.mem_append.2 (.inr (List.mem_map.2 ⟨q, List.mem_of_getElem? hq, rfl⟩))
  match ps, hs with
  | [], hs => have := spells_nil_inv hs; cases this
  | [p], hs =>
    obtain ⟨s, u, hp, hu, e⟩ := spells_cons_inv hs
    have := spells_nil_inv hu
    subst this
    rw [List.append_nil] at e
    subst e
    exact ⟨p, rfl, hp⟩
  | p :: q :: l, hs =>
    obtain ⟨s, u, hp, hu, e⟩ := spells_cons_inv hs
    obtain ⟨r, v, hq, hv, e2⟩ := spells_cons_inv hu
    have l1 := List.length_pos_iff.2 (hne _ _ hp)
    have l2 := List.length_pos_iff.2 (hne _ _ hq)
    have := congrArg List.length e
    rw [e2] at this
    simp at this
    omega

theorem workSum_single (d : Bytes → Ix → Nat) (ix : Ix) (l : List UInt8) :
    workSum d (l.map (fun b => [b])) ix = (l.map (fun b => d [b] ix)).sum := by
  unfold workSum
  rw [List.map_map]; rfl

theorem single_stats {ts : TokenSet} (hf : Family ts) {st : TokenStats}
    (h : tokenizeFileSync ts singleEnv.sampler.samples singleEnv.initialSize = .ok st) :
    512 ≤ st.totalTokens + (byteTokens ts).length ∧ (∀ k, st.pairCounts.getD k 0 = 0) ∧
      (ts.sequences = [] → st.totalTokens = 256) := by
  have hu := Tokens.Family.usable hf
  obtain ⟨tk, d, hn, ht, hw, hsh, _, hc⟩ := sync_inv hu.inRange h
  have key : ∀ b : UInt8, ∃ p : Piece, p.string ts = some [b] ∧ d [b] = segCount ts [p] 1 := by
    intro b
    obtain ⟨ps, hl, e⟩ := hw.seg [b]
    obtain ⟨p, rfl, hp⟩ := single_piece hu hl.optimal.1
    exact ⟨p, hp, e⟩
  have htot : st.totalTokens = (allBytes.map (fun b => d [b] .total)).sum := by
    rw [← workSum_single]
    exact hc .total
  have one : ∀ b, 2 ≤ d [b] .total + (if b ∈ byteTokens ts then 1 else 0) := by
    intro b
    obtain ⟨p, hp, e⟩ := key b
    rw [e]
    cases p with
    | tok i =>
      rw [Piece.string_tok] at hp
      have : b ∈ byteTokens ts := mem_byteTokens.2 (List.mem_of_getElem? hp)
      simp [segCount, output, Piece.output, this]
    | seq i =>
      rw [Piece.string_seq] at hp
      obtain ⟨q, hq, _⟩ := hp
      have := family_seqLen hf q (List.mem_of_getElem? hq)
      simp [segCount, output, Piece.output, hq]
      omega
  refine ⟨?_, ?_, ?_⟩
  · have e := sum_indicator (u := fun _ => 1) allBytes (byteTokens ts) allBytes_nodup (pieceBytes ht).1
      (fun b _ => mem_allBytes b)
    have e2 : ((byteTokens ts).map (fun _ => 1)).sum = (byteTokens ts).length := by simp
    rw [htot, ← e2, ← e]
    have : ∀ l : List UInt8, 2 * l.length ≤ (l.map (fun b => d [b] .total)).sum +
        (l.map (fun b => if b ∈ byteTokens ts then 1 else 0)).sum := by
      intro l
      induction l with
      | nil => simp
      | cons b l ih =>
        have := one b
        simp only [List.map_cons, List.sum_cons, List.length_cons]
        omega
    have := this allBytes
    rw [allBytes_length] at this
    exact this
  · intro k
    have h1 := hc (.pair k)
    have h2 : cnt st (.pair k) = st.pairCounts.getD k 0 := rfl
    rw [← h2, h1]
    show workSum d (allBytes.map (fun b => [b])) (.pair k) = 0
    rw [workSum_single]
    have : ∀ b, d [b] (.pair k) = 0 := by
      intro b
      obtain ⟨p, _, e⟩ := key b
      rw [e]
      cases p <;> simp [segCount, pairOcc]
    have h3 : (fun b : UInt8 => d [b] (.pair k)) = fun _ => 0 := funext this
    rw [h3]
    generalize allBytes = l
    induction l with
    | nil => rfl
    | cons b l ih => simp
  · intro h0
    have : ∀ b, d [b] .total = 1 := by
      intro b
      obtain ⟨p, hp, e⟩ := key b
      rw [e]
      obtain ⟨i, rfl, _⟩ := Example.noSeq_pieces h0 hp
      rfl
    have h3 : (fun b : UInt8 => d [b] .total) = fun _ => 1 := funext this
    rw [htot, h3]
    have : ∀ l : List UInt8, (l.map (fun _ => 1)).sum = l.length := by intro l; simp
    rw [this, allBytes_length]

/-- The sets of the byte optimizer. -/
def HuffFam2 (ts : TokenSet) : Prop := HuffFam .raw ts ∧ 2 ≤ ts.nExt

theorem huff2_behaves {ntokens : Nat} : Behaves huff HuffFam2 3 258 ntokens where
  family h := .inr (.inr h.1.1)
  keep := by
    rintro a b ⟨h1, h2⟩ hu hs hh e
    exact ⟨huff_behaves (ntokens := ntokens).keep h1 hu hs hh e, by rw [hh.nExt]; exact h2⟩
  bounds h := h.1.2.2
  min_lo h := huff_behaves (ntokens := ntokens).min_lo h.1
  opt := by
    rintro st n ⟨⟨h1, h3, h4⟩, h5⟩ hc hlo hhi
    obtain ⟨ts', g1, g2, g3, g4, g5, g6, _, g7, _⟩ := huff_spec h1.accepted hc (huff_single h1) hlo
    have e : shortCount ts' = min n 258 := g7
    exact ⟨ts', g1, ⟨⟨g2, by rw [g3, h3], by omega⟩, g6⟩, g5, e⟩

/-- Such a set, of at most 257 tokens, needs more than 256 output tokens. -/
theorem huff2_total {ts : TokenSet} (h : LoopSet HuffFam2 257 ts) : 257 ≤ tot singleEnv ts := by
  have hf : Family ts := .inr (.inr h.fam.1.1)
  have hu := Tokens.Family.usable hf
  obtain ⟨st, hst⟩ := sync_exists hu.accepted hu.inRange singleEnv.sampler.samples singleEnv.initialSize
  rw [tot_sync hf hst]
  have h1 := (single_stats hf hst).1
  have h2 := size_split hu
  have h3 := h.fam.2
  have h4 := h.size
  unfold shortCount at h2
  omega

theorem allBytesHuff_total : tot singleEnv allBytesHuff = 256 := by
  have hf : Family allBytesHuff := .inr (.inr allBytesHuff_family)
  have hu := Tokens.Family.usable hf
  obtain ⟨st, hst⟩ := sync_exists hu.accepted hu.inRange singleEnv.sampler.samples singleEnv.initialSize
  rw [tot_sync hf hst]
  exact (single_stats hf hst).2.2 rfl

theorem witness_step' {S : TokenSet → Prop} (rc : Removals) (ts0 : TokenSet) (hfam : HuffFam .raw ts0)
    (hlong : longTokens ts0 = []) (hshort : shortCount ts0 = 256) (htot : tot singleEnv ts0 = 256) :
    (optimizationStep huff ts0 257 rc).wp singleEnv S (fun r => ∃ ts' rc', r = .ok (some ts', rc') ∧
      LoopSet HuffFam2 257 ts') := by
  have hF : Family ts0 := .inr (.inr hfam.1)
  have B := huff_behaves (p := .raw) (ntokens := 257)
  have hsz : ts0.ntokens = 256 := by
    have := size_split (Tokens.Family.usable hF)
    rw [hlong, hshort] at this
    exact this
  -- what the optimizer makes of the statistics
  have opt : ∀ st, Fresh singleEnv ts0 st → ∃ ts', huff st.cloneWithoutPairs 257 = .ok ts' ∧
      huff st 257 = .ok ts' ∧ LoopSet HuffFam2 257 ts' := by
    intro st hst
    obtain ⟨f1, f2, f3, f4, f5, f6⟩ := fresh_facts B hfam hst
    obtain ⟨ts', g1, g2, g3, g4, g5, g6, _, g7, g8⟩ := huff_spec (st := st) f1.1.accepted f5 (huff_single f1.1)
      (n := 257) (by decide)
    have e : shortCount ts' = min 257 258 := g7
    have hl := (sameSet_long f2).length_eq
    rw [hlong, List.length_nil] at hl
    rw [hl] at g8
    exact ⟨ts', g1, g1, ⟨⟨g2, by rw [g3]; exact f1.2.1, by omega⟩, g6⟩, by omega⟩
  unfold optimizationStep
  refine wp_getStats hF ?_
  intro st hst
  obtain ⟨ts1, h1, _, h2⟩ := opt st hst
  refine wp_lift (a := 257) (by rw [nLong_eq, hlong]; rfl) ?_
  refine wp_lift h1 ?_
  refine wp_getStats (.inr (.inr h2.fam.1.1)) ?_
  intro st1 hst1
  rw [if_neg (by
    show ¬ st1.totalTokens < st.totalTokens
    have := huff2_total h2
    rw [← fresh_tot hst1, ← fresh_tot hst]; omega)]
  apply wp_bind'
  unfold removeAddToken
  rw [if_pos (show ts0.ntokens < 257 by rw [hsz]; decide)]
  apply wp_bind'
  unfold addToken
  refine wp_getPairs hF ?_
  intro st2 hst2
  obtain ⟨f1, f2, f3, f4, f5, f6⟩ := fresh_facts B hfam hst2
  obtain ⟨s1, s2, s3, s4⟩ := fresh_sorted B hfam hst2
  rcases addByte_ok B f1 f4 (by rw [s3]; exact (show ts0.ntokens < 257 by rw [hsz]; decide)) with
    ⟨a1, _⟩ | ⟨tb, db, sb, a1, a2, a3, a4, a5, a6, a7, a8⟩
  · rw [s4, hshort] at a1; cases a1
  · refine wp_lift a1 ?_
    have hnone : addTokenBpe st2 = .ok none := by
      rcases bpe_cases f6 f4 with ⟨_, h⟩ | ⟨k, _, _, _, hk, _⟩ | ⟨k, _, _, _, hk, _⟩
      · exact h
      · rw [(single_stats (B.family f1) f4).2.1 k] at hk; omega
      · rw [(single_stats (B.family f1) f4).2.1 k] at hk; omega
    refine wp_lift hnone ?_
    obtain ⟨ts3, _, g1, g2⟩ := opt st2 hst2
    rw [s4, hshort] at a5
    have := Except.ok.inj (a5.symm.trans g1)
    subst this
    refine wp_getStats (B.family a2) ?_
    intro st3 hst3
    have B2 := huff2_behaves (ntokens := 257)
    have k1 := fresh_facts B2 g2.fam hst3
    have k2 := fresh_sorted B2 g2.fam hst3
    have hl : LoopSet HuffFam2 257 st3.tokenSet := ⟨k1.1, by rw [k2.2.2.1]; exact g2.size⟩
    refine wp_lift (a := ()) (rassert_true ?_) ?_
    · show decide (st3.tokenSet.tokens.length ≤ 257) = true
      simpa using hl.size
    · exact ⟨_, _, rfl, hl⟩

theorem witness_step {S : TokenSet → Prop} (rc : Removals) :
    (optimizationStep huff allBytesHuff 257 rc).wp singleEnv S (fun r => ∃ ts' rc', r = .ok (some ts', rc') ∧
      LoopSet HuffFam2 257 ts') :=
  witness_step' rc allBytesHuff ⟨allBytesHuff_family, rfl, by rw [allBytesHuff_short]; decide⟩
    (bytesSet_long .raw) allBytesHuff_short allBytesHuff_total

theorem witness_impl (he : EnvOk singleEnv) {w w' : World} (hw : Reached singleEnv w) {r : R TokenStats}
    (h : Impl singleEnv huff 257 allBytesHuff w r w') : ∃ st, r = .ok st ∧ 257 ≤ st.totalTokens := by
  have hF : Family allBytesHuff := .inr (.inr allBytesHuff_family)
  have B := huff2_behaves (ntokens := 257)
  have hloop : ∀ st w1, Run singleEnv (getStats allBytesHuff) w (.ok st) w1 → ∀ r2 w2,
      Loop singleEnv huff 257 allBytesHuff (fun _ => 0) w1 r2 w2 → 
      ∃ ts, r2 = .ok ts ∧ LoopSet HuffFam2 257 ts ∧ WorldOk singleEnv w2 := by
    intro st w1 h1 r2 w2 h2
    have hwp : (getStats allBytesHuff).wp singleEnv (fun _ => False) (fun _ => True) :=
      ⟨hF, fun st _ => trivial⟩
    have hw1 := reached_ok (reached_run he h1 hwp hw)
    cases h2 with
    | stop hs => obtain ⟨⟨_, _, h, _⟩, _⟩ := wp_sound he hs (witness_step (S := fun _ => False) _) hw1; cases h
    | fail hs => obtain ⟨⟨_, _, h, _⟩, _⟩ := wp_sound he hs (witness_step (S := fun _ => False) _) hw1; cases h
    | again hs hsave hl =>
      obtain ⟨⟨ts', rc', h, hl'⟩, g1, _⟩ := wp_sound he hs (witness_step (S := fun _ => False) _) hw1
      cases h
      have hsv := wp_sound he hsave (wp_maybeSave (env := singleEnv) (S := fun _ => True) trivial
        (Tokens.Family.usable (B.family hl'.fam)).inRange) g1
      obtain ⟨ts, e, k1, _, _, k2, _⟩ := loop_ok B he hl hl' hsv.2.1
      exact ⟨ts, e, k1, k2⟩
    | saveFail hs hsave =>
      obtain ⟨⟨ts', rc', h, hl'⟩, g1, _⟩ := wp_sound he hs (witness_step (S := fun _ => False) _) hw1
      cases h
      have hsv := wp_sound he hsave (wp_maybeSave (env := singleEnv) (S := fun _ => True) trivial
        (Tokens.Family.usable (B.family hl'.fam)).inRange) g1
      cases hsv.1
  have hfin : ∀ ts, LoopSet HuffFam2 257 ts → (finish ts).wp singleEnv (fun _ => False)
      (fun r => ∃ st, r = .ok st ∧ 257 ≤ st.totalTokens) := by
    intro ts k1
    have hf := B.family k1.fam
    unfold finish
    obtain ⟨ts3, hs⟩ := (sort_ok_iff _).2 (Tokens.Family.usable hf).inRange
    refine wp_lift hs ?_
    refine ⟨sort_family hf hs, fun full hfull => ⟨_, rfl, ?_⟩⟩
    have : Fresh singleEnv ts full := by
      obtain ⟨t, g1, g2⟩ := hfull
      have := Except.ok.inj (g1.symm.trans (sort_idem hs))
      subst this
      exact ⟨_, hs, g2⟩
    show 257 ≤ full.totalTokens
    rw [← fresh_tot this]
    exact huff2_total k1
  cases h with
  | done h1 h2 h3 =>
    obtain ⟨ts, e, k1, k2⟩ := hloop _ _ h1 _ _ h2
    cases e
    exact (wp_sound he h3 (hfin _ k1) k2).1
  | firstFail h1 =>
    have hwp : (getStats allBytesHuff).wp singleEnv (fun _ => False) (fun r => ∃ st, r = .ok st) :=
      ⟨hF, fun st _ => ⟨_, rfl⟩⟩
    obtain ⟨⟨_, h⟩, _⟩ := wp_sound he h1 hwp (reached_ok hw)
    cases h
  | loopFail h1 h2 =>
    obtain ⟨ts, e, _⟩ := hloop _ _ h1 _ _ h2
    cases e

end Optimize
end Tokens
