import Verif.Proofs.Reach

/-! Where the optimizer starts, and when it fails. -/

set_option linter.unusedSimpArgs false
set_option linter.unusedVariables false

namespace Tokens
open Spec TokenSet Batch OptimizeBytes

namespace Optimize

variable {env : Env} {S : TokenSet → Prop}

theorem scratch_bits {ty : TokenType} {q : Nat × Nat} (hq : bitsParams ty = some q) (p : Processing) (n : Nat) :
    ∃ ts, startSet n p ty none = .pure ts ∧ BitsFamily ts ∧ ts.tokenType = ty ∧ ts.processing = p ∧
      ts.tokens.length = q.1 ∧ longTokens ts = [] ∧ ts.nExt = q.1 := by
  cases ty with
  | bits1 =>
    cases hq
    refine ⟨_, by unfold startSet; rw [newBits1_eq]; rfl,
      bitsSet_family (len := 8) (by decide) _ _ _ rfl (by decide +kernel), rfl, rfl, rfl, rfl, rfl⟩
  | bits2 =>
    cases hq
    refine ⟨_, by unfold startSet; rw [newBits2_eq]; rfl,
      bitsSet_family (len := 4) (by decide) _ _ _ rfl (by decide +kernel), rfl, rfl, rfl, rfl, rfl⟩
  | bits4 =>
    cases hq
    refine ⟨_, by unfold startSet; rw [newBits4_eq]; rfl,
      bitsSet_family (len := 2) (by decide) _ _ _ rfl (by decide +kernel), rfl, rfl, rfl, rfl, rfl⟩
  | bytes => simp [bitsParams] at hq
  | bytesHuff => simp [bitsParams] at hq

theorem bytesSet_long (p : Processing) : longTokens (bytesSet p) = [] := by
  rw [List.eq_nil_iff_forall_not_mem]
  intro s hs
  obtain ⟨h1, h2⟩ := mem_longTokens.1 hs
  have : Token.str s ∈ byteStrings.map Token.str := h1
  obtain ⟨x, hx, e⟩ := List.mem_map.1 this
  cases e
  obtain ⟨b, rfl⟩ := mem_byteStrings.1 hx
  simp at h2

theorem bytesSet_size (p : Processing) : (bytesSet p).tokens.length = 256 := by
  rw [size_split (bytesSet_family p).toUsable, bytes_all (bytesSet_family p), bytesSet_long]
  rfl

theorem lift_ok_bind {α β : Type} (a : α) (f : α → Prog β) : (Prog.lift (.ok a) >>= f) = f a := rfl

theorem startSet_huff (n : Nat) (p : Processing) : startSet n p .bytesHuff none =
    (getStats (bytesSet p) >>= fun st => Prog.lift (huff st n)) := by
  have h : startSet n p .bytesHuff none =
    (Prog.lift (newBytes p) >>= fun ts => getStats ts >>= fun st => Prog.lift (huff st n)) := by
    unfold startSet; rfl
  rw [h, newBytes_eq, lift_ok_bind]

/-- The facts about the start from scratch. -/
structure GoodStart (ty : TokenType) (p : Processing) (n : Nat) (ts : TokenSet) : Prop where
  work : Workable ty p n ts
  full : ty = .bytesHuff → shortCount ts = 258 ∨ ts.tokens.length = n
  noLong : longTokens ts = []

theorem start_wp (ty : TokenType) (p : Processing) (n : Nat) (h : Admissible ty n) :
    (startSet n p ty none).wp env S (fun r => ∃ ts, r = .ok ts ∧ GoodStart ty p n ts) := by
  have bits : ∀ q, bitsParams ty = some q → q.1 ≤ n ∧ n ≤ q.1 + 256 →
      (startSet n p ty none).wp env S (fun r => ∃ ts, r = .ok ts ∧ GoodStart ty p n ts) := by
    intro q hq hn
    obtain ⟨ts, h1, h2, h3, h4, h5, h6, _⟩ := scratch_bits hq p n
    rw [h1]
    have hne : ty ≠ .bytesHuff := by rintro rfl; simp [bitsParams] at hq
    refine ⟨ts, rfl, ⟨.inl h2, h3, h4, by omega, ?_, fun h => absurd h hne⟩, fun h => absurd h hne, h6⟩
    intro q' hq'
    have := Option.some.inj (hq.symm.trans hq')
    subst this
    exact hn.2
  cases ty with
  | bits1 => exact bits _ rfl h
  | bits2 => exact bits _ rfl h
  | bits4 => exact bits _ rfl h
  | bytes =>
    unfold startSet
    simp only []
    rw [newBytes_eq]
    refine ⟨_, rfl, ⟨.inr (.inl (bytesSet_family p)), rfl, rfl, ?_, fun _ h => by simp [bitsParams] at h,
      fun h => by simp at h⟩, fun h => by simp at h, bytesSet_long p⟩
    rw [bytesSet_size]; exact h
  | bytesHuff =>
    rw [startSet_huff]
    have hf := bytesSet_family p
    refine wp_getStats (.inr (.inl hf)) ?_
    intro st hst
    obtain ⟨f1, f2, f3, f4, f5, f6⟩ := fresh_facts (bytes_behaves (p := p) (ntokens := n)) ⟨hf, rfl⟩ hst
    have f5' : CountsFit st.cloneWithoutPairs := ⟨f5.tokens, f5.seqs⟩
    obtain ⟨ts', g1, g2, g3, g4, g5, _, _, g6, g7⟩ := huff_spec (st := st.cloneWithoutPairs) f1.1.accepted f5'
      (by intro q hq; rw [show st.cloneWithoutPairs.tokenSet.sequences = [] from f1.1.noSeq] at hq; simp at hq) h
    rw [g1]
    have hl : (longTokens st.cloneWithoutPairs.tokenSet).length = 0 := by
      have := (sameSet_long f2).length_eq
      rw [bytesSet_long] at this
      exact this
    have g6' : shortCount ts' = min n 258 := g6
    rw [hl] at g7
    have h' : 3 ≤ n := h
    refine ⟨ts', rfl, ⟨.inr (.inr g2), g2.type, by rw [g3]; exact f1.2, by omega,
      fun _ h => by simp [bitsParams] at h, fun _ => by omega⟩, fun _ => by omega, by
        rw [g5]; exact List.length_eq_zero_iff.1 hl⟩

theorem removeAddToken_bad (bo : BytesOptimizer) (ts : TokenSet) (n : Nat) (rc : Removals)
    (h : n < ts.ntokens) :
    (removeAddToken bo ts n rc).wp env S (fun r => r = .error .assertFailed) := by
  unfold removeAddToken
  rw [if_neg (by omega)]
  refine wp_lift_error (e := .assertFailed) ?_ rfl
  have : (ts.ntokens == n) = false := by rw [beq_eq_false_iff_ne]; omega
  rw [this]; rfl

/-- The whole, from a set on. -/
theorem start_bad (ty : TokenType) (p : Processing) (n : Nat) (h : ¬ Admissible ty n) :
    (startSet n p ty none).wp env S (fun r => (∃ e, r = .error e) ∨ ∃ ts, r = .ok ts ∧ Family ts ∧
      ∀ rc, (optimizationStep (optimizerFor ty) ts n rc).wp env S (fun r => ∃ e, r = .error e)) := by
  have bits : ∀ q, bitsParams ty = some q → optimizerFor ty = simple → ¬ (q.1 ≤ n ∧ n ≤ q.1 + 256) →
      (startSet n p ty none).wp env S (fun r => (∃ e, r = .error e) ∨ ∃ ts, r = .ok ts ∧ Family ts ∧
      ∀ rc, (optimizationStep (optimizerFor ty) ts n rc).wp env S (fun r => ∃ e, r = .error e)) := by
    intro q hq ho hn
    obtain ⟨ts, h1, h2, h3, h4, h5, h6, h7⟩ := scratch_bits hq p n
    rw [h1]
    refine .inr ⟨ts, rfl, .inl h2, ?_⟩
    intro rc
    rw [ho]
    unfold optimizationStep
    refine wp_getStats (.inl h2) ?_
    intro st hst
    obtain ⟨f1, f2, f3, f4, f5, f6⟩ := fresh_facts (bits_behaves (p := p) (ntokens := q.1) hq (by omega))
      ⟨h2, h3, h4⟩ hst
    have f5' : CountsFit st.cloneWithoutPairs := ⟨f5.tokens, f5.seqs⟩
    refine wp_lift (a := n) (by rw [nLong_eq, h6, subR_of (by simp)]; rfl) ?_
    have hx : st.cloneWithoutPairs.tokenSet.nExt = q.1 := by
      rw [← h7]; exact f2.header.nExt
    rcases Nat.lt_or_ge n q.1 with hlt | hge
    · exact wp_lift_error (simple_small (st := st.cloneWithoutPairs) (by omega)) ⟨_, rfl⟩
    · have := simple_big (st := st.cloneWithoutPairs) f1.1 f5' (k := n - q.1) (by omega)
      rw [hx, show q.1 + (n - q.1) = n by omega] at this
      exact wp_lift_error this ⟨_, rfl⟩
  cases ty with
  | bits1 => exact bits _ rfl rfl h
  | bits2 => exact bits _ rfl rfl h
  | bits4 => exact bits _ rfl rfl h
  | bytes =>
    have h' : n < 256 := by unfold Admissible at h; omega
    unfold startSet
    simp only []
    rw [newBytes_eq]
    have hf := bytesSet_family p
    refine .inr ⟨_, rfl, .inr (.inl hf), ?_⟩
    intro rc
    unfold optimizationStep
    refine wp_getStats (.inr (.inl hf)) ?_
    intro st hst
    refine wp_lift (a := n) (by rw [nLong_eq, bytesSet_long, subR_of (by simp)]; rfl) ?_
    refine wp_lift (x := optimizerFor .bytes st.cloneWithoutPairs n) rfl ?_
    have hst' := fresh_facts (bytes_behaves (p := p) (ntokens := n)) ⟨hf, rfl⟩ hst
    refine wp_getStats (show Family st.tokenSet from .inr (.inl hst'.1.1)) ?_
    intro st1 hst1
    have e : st1.totalTokens = st.totalTokens := by
      rw [← fresh_tot hst1, ← fresh_tot hst]
      exact (fresh_sorted (bytes_behaves (p := p) (ntokens := n)) ⟨hf, rfl⟩ hst).2.1
    rw [if_neg (show ¬ st1.cloneWithoutPairs.totalTokens < st.cloneWithoutPairs.totalTokens by
      show ¬ st1.totalTokens < st.totalTokens; omega)]
    apply wp_bind'
    refine wp_mono _ ?_ (removeAddToken_bad _ _ n rc (by
      show n < (bytesSet p).tokens.length
      rw [bytesSet_size]; exact h'))
    rintro r rfl
    exact ⟨_, rfl⟩
  | bytesHuff =>
    have h' : n < 3 := by unfold Admissible at h; omega
    rw [startSet_huff]
    refine wp_getStats (.inr (.inl (bytesSet_family p))) ?_
    intro st hst
    obtain ⟨e, he⟩ := huff_small st.cloneWithoutPairs h'
    rw [he]
    exact .inl ⟨e, rfl⟩

end Optimize
end Tokens
