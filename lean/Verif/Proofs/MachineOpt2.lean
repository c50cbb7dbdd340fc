import Verif.Proofs.MachineOpt
import Verif.Proofs.Stuck

/-! The arithmetic of the optimizer does not overflow: the byte optimizers and `add_byte`. -/

set_option linter.unusedSimpArgs false
set_option linter.unusedVariables false

namespace Tokens
open Spec TokenSet Batch OptimizeBytes Optimize

namespace MachineOpt

variable {A : Arith}

/-- Statistics whose counters leave room. -/
structure Small (st : TokenStats) : Prop where
  sums : 256 * (st.tokenCounts.sum + st.seqCounts.sum + 256) < 2 ^ 63
  pairs : ∀ c ∈ st.pairCounts, c < 2 ^ 63

theorem mem_le_sum {l : List Nat} {c : Nat} (h : c ∈ l) : c ≤ l.sum := by
  induction l with
  | nil => cases h
  | cons a l ih =>
    rw [List.sum_cons]
    rcases List.mem_cons.1 h with rfl | h
    · omega
    · have := ih h; omega

theorem Small.tok {st : TokenStats} (h : Small st) : ∀ c ∈ st.tokenCounts, c + 1 < 2 ^ 63 := by
  intro c hc
  have := mem_le_sum hc
  have := h.sums
  omega

theorem Small.seq {st : TokenStats} (h : Small st) : ∀ c ∈ st.seqCounts, c + 1 < 2 ^ 63 := by
  intro c hc
  have := mem_le_sum hc
  have := h.sums
  omega

/-! ### `count_tokens_in_bytes` -/

theorem costTok_le (toks : List Token) (a a' : ByteArr (Option Nat)) (ha : ∀ b c, a b = some c → c ≤ 256)
    (h : costTok toks a = .ok a') : ∀ b c, a' b = some c → c ≤ 256 := by
  fun_induction costTok toks a with
  | case1 => cases h; exact ha
  | case2 b ts a ih =>
    obtain ⟨_, _, h⟩ := ok_bind_inv h
    refine ih ?_ h
    intro x c e
    unfold ByteArr.set at e
    split at e
    · have := Option.some.inj e; omega
    · exact ha x c e
  | case3 t ts a hne ih => exact ih ha h

theorem costSeq_le (qs : List Sequence) (a a' : ByteArr (Option Nat)) (ha : ∀ b c, a b = some c → c ≤ 256)
    (hq : ∀ q ∈ qs, q.tokens.length ≤ 256)
    (h : costSeq qs a = .ok a') : ∀ b c, a' b = some c → c ≤ 256 := by
  fun_induction costSeq qs a with
  | case1 => cases h; exact ha
  | case2 b l qs a ih =>
    obtain ⟨_, _, h⟩ := ok_bind_inv h
    refine ih ?_ (fun q hq' => hq q (by simp [hq'])) h
    intro x c e
    unfold ByteArr.set at e
    split at e
    · have := Option.some.inj e
      have := hq ⟨[b], l⟩ (by simp)
      simp only at this
      omega
    · exact ha x c e
  | case3 t ts a hne ih => exact ih ha (fun q hq' => hq q (by simp [hq'])) h

theorem drop_getR {l : List Nat} {i n : Nat} (h : getR l i = .ok n) :
    (l.drop i).sum = n + (l.drop (i + 1)).sum := by
  unfold getR at h
  split at h
  · next e =>
    obtain ⟨g1, g2⟩ := List.getElem?_eq_some_iff.1 e
    have := Except.ok.inj h
    subst this
    rw [List.drop_eq_getElem_cons g1, List.sum_cons, g2]
  · cases h

theorem drop_le (l : List Nat) (i : Nat) : (l.drop (i + 1)).sum ≤ (l.drop i).sum := by
  by_cases h : i < l.length
  · rw [List.drop_eq_getElem_cons h, List.sum_cons]; omega
  · rw [List.drop_eq_nil_of_le (by omega)]; simp

theorem sumTok_same (hA : Exact A) {cost : ByteArr (Option Nat)} (hc : ∀ b c, cost b = some c → c ≤ 256)
    (counts : List Nat) (toks : List Token) (i total : Nat)
    (h : total + 256 * (counts.drop i).sum < 2 ^ 64) :
    sumTok A cost counts toks i total = Optimize.sumTok cost counts toks i total ∧
      ∀ t, Optimize.sumTok cost counts toks i total = .ok t → t ≤ total + 256 * (counts.drop i).sum := by
  fun_induction Optimize.sumTok cost counts toks i total with
  | case1 => exact ⟨rfl, fun t e => by have := Except.ok.inj e; omega⟩
  | case2 b ts i total ih =>
    rw [sumTok]
    cases hb : cost b with
    | none => exact ⟨by simp only [unwrapR, R.error_bind], fun t e => by simp [unwrapR] at e⟩
    | some c =>
      simp only [unwrapR, R.ok_bind]
      cases hg : getR counts i with
      | error e => exact ⟨by simp only [R.error_bind], fun t e => by simp at e⟩
      | ok n =>
        simp only [R.ok_bind]
        have h1 := drop_getR hg
        have h2 : c * n ≤ 256 * n := Nat.mul_le_mul_right n (hc b c hb)
        rw [hA.mul _ _ (by omega), R.ok_bind, hA.add _ _ (by omega), R.ok_bind]
        obtain ⟨i1, i2⟩ := ih c n (by omega)
        exact ⟨i1, fun t e => by have := i2 t e; omega⟩
  | case3 t ts i total hne ih =>
    have h1 := drop_le counts i
    rw [sumTok]
    · obtain ⟨i1, i2⟩ := ih (by omega)
      exact ⟨i1, fun t e => by have := i2 t e; omega⟩
    · exact hne

theorem sumSeq_same (hA : Exact A) {cost : ByteArr (Option Nat)} (hc : ∀ b c, cost b = some c → c ≤ 256)
    (counts : List Nat) (qs : List Sequence) (i total : Nat)
    (h : total + 256 * (counts.drop i).sum < 2 ^ 64) :
    sumSeq A cost counts qs i total = Optimize.sumSeq cost counts qs i total ∧
      ∀ t, Optimize.sumSeq cost counts qs i total = .ok t → t ≤ total + 256 * (counts.drop i).sum := by
  fun_induction Optimize.sumSeq cost counts qs i total with
  | case1 => exact ⟨rfl, fun t e => by have := Except.ok.inj e; omega⟩
  | case2 b l ts i total ih =>
    rw [sumSeq]
    cases hb : cost b with
    | none => exact ⟨by simp only [unwrapR, R.error_bind], fun t e => by simp [unwrapR] at e⟩
    | some c =>
      simp only [unwrapR, R.ok_bind]
      cases hg : getR counts i with
      | error e => exact ⟨by simp only [R.error_bind], fun t e => by simp at e⟩
      | ok n =>
        simp only [R.ok_bind]
        have h1 := drop_getR hg
        have h2 : c * n ≤ 256 * n := Nat.mul_le_mul_right n (hc b c hb)
        rw [hA.mul _ _ (by omega), R.ok_bind, hA.add _ _ (by omega), R.ok_bind]
        obtain ⟨i1, i2⟩ := ih c n (by omega)
        exact ⟨i1, fun t e => by have := i2 t e; omega⟩
  | case3 t ts i total hne ih =>
    have h1 := drop_le counts i
    rw [sumSeq]
    · obtain ⟨i1, i2⟩ := ih (by omega)
      exact ⟨i1, fun t e => by have := i2 t e; omega⟩
    · exact hne

theorem countTokensInBytes_same (hA : Exact A) {ts : TokenSet} (hq : ∀ q ∈ ts.sequences, q.tokens.length ≤ 256)
    {st : TokenStats} (h : Small st) :
    countTokensInBytes A ts st = Optimize.countTokensInBytes ts st ∧
      ∀ t, Optimize.countTokensInBytes ts st = .ok t → t < 2 ^ 63 := by
  unfold countTokensInBytes Optimize.countTokensInBytes
  cases h1 : costTok ts.tokens (fun _ => none) with
  | error e => exact ⟨by simp only [R.error_bind], fun t e => by simp at e⟩
  | ok a =>
    have ha := costTok_le _ _ _ (fun b c e => by cases e) h1
    simp only [R.ok_bind]
    cases h2 : costSeq ts.sequences a with
    | error e => exact ⟨by simp only [R.error_bind], fun t e => by simp at e⟩
    | ok a' =>
      have ha' := costSeq_le _ _ _ ha hq h2
      simp only [R.ok_bind]
      have hs := h.sums
      obtain ⟨e1, e2⟩ := sumTok_same hA ha' st.tokenCounts st.tokenSet.tokens 0 0
        (by rw [List.drop_zero]; omega)
      rw [List.drop_zero] at e2
      rw [e1]
      cases h3 : Optimize.sumTok a' st.tokenCounts st.tokenSet.tokens 0 0 with
      | error e => exact ⟨by simp only [R.error_bind], fun t e => by simp at e⟩
      | ok t =>
        have := e2 t h3
        simp only [R.ok_bind]
        obtain ⟨e3, e4⟩ := sumSeq_same hA ha' st.seqCounts st.tokenSet.sequences 0 t
          (by rw [List.drop_zero]; omega)
        rw [List.drop_zero] at e4
        exact ⟨e3, fun x hx => by have := e4 x hx; omega⟩

/-- A byte optimizer computes the same with machine arithmetic, and what it makes has short sequences. -/
def SameBo (bo' bo : BytesOptimizer) : Prop :=
  ∀ st n, Small st → Family st.tokenSet → CountsFit st →
    bo' st n = bo st n ∧ ∀ ts, bo st n = .ok ts → ∀ q ∈ ts.sequences, q.tokens.length ≤ 256

theorem addByte_same (hA : Exact A) {bo' bo : BytesOptimizer} (hb : SameBo bo' bo) {st : TokenStats}
    (h : Small st) (hf : Family st.tokenSet) (hc : CountsFit st) :
    addByte A bo' st = Optimize.addByte bo st := by
  unfold addByte Optimize.addByte
  obtain ⟨e1, e2⟩ := countTokensInBytes_same hA (family_short hf) h
  rw [e1]
  cases h1 : Optimize.countTokensInBytes st.tokenSet st with
  | error e => simp only [R.error_bind]
  | ok old =>
    have hold := e2 old h1
    simp only [R.ok_bind]
    cases subR st.tokenSet.ntokens st.tokenSet.nLongTokens with
    | error e => simp only [R.error_bind]
    | ok n =>
      simp only [R.ok_bind]
      obtain ⟨b1, b2⟩ := hb st (n + 1) h hf hc
      rw [b1]
      cases h2 : bo st (n + 1) with
      | error e => simp only [R.error_bind]
      | ok ts =>
        simp only [R.ok_bind]
        split
        · rfl
        · obtain ⟨e3, e4⟩ := countTokensInBytes_same hA (b2 ts h2) h
          rw [e3]
          cases h3 : Optimize.countTokensInBytes ts st with
          | error e => simp only [R.error_bind]
          | ok new =>
            have hnew := e4 new h3
            simp only [R.ok_bind]
            rw [toI64_of hold, toI64_of hnew, hA.sub _ _ hold hnew, R.ok_bind]

/-! ### The byte optimizers -/

theorem simple_type {st : TokenStats} {n : Nat} {ts : TokenSet} (h : OptimizeBytes.simple st n = .ok ts) :
    ∃ q, bitsParams st.tokenSet.tokenType = some q := by
  unfold OptimizeBytes.simple at h
  obtain ⟨_, _, h⟩ := ok_bind_inv h
  obtain ⟨_, _, h⟩ := ok_bind_inv h
  obtain ⟨_, _, h⟩ := ok_bind_inv h
  obtain ⟨_, _, h⟩ := ok_bind_inv h
  obtain ⟨f, hf, h⟩ := ok_bind_inv h
  unfold freshBits at hf
  unfold bitsParams
  split at hf <;> first | (rename_i e; rw [e]; exact ⟨_, rfl⟩) | cases hf

theorem sameBo_simple (hA : Exact A) : SameBo (simple A) OptimizeBytes.simple := by
  intro st n h hf hc
  refine ⟨simple_same hA st n (fun c hc => Nat.lt_of_succ_lt (h.tok c hc))
    (fun c hc => Nat.lt_of_succ_lt (h.seq c hc)), ?_⟩
  intro ts hts
  have hb : BitsFamily st.tokenSet := by
    obtain ⟨q, hq⟩ := simple_type hts
    rcases hf with hf | hf | hf
    · exact hf
    · rw [hf.type] at hq; cases hq
    · rw [hf.type] at hq; cases hq
  by_cases h1 : n < st.tokenSet.nExt
  · rw [simple_small h1] at hts; cases hts
  · obtain ⟨k, rfl⟩ : ∃ k, n = st.tokenSet.nExt + k := ⟨n - st.tokenSet.nExt, by omega⟩
    by_cases h2 : 256 < k
    · rw [simple_big hb hc h2] at hts; cases hts
    · obtain ⟨ts', e1, e2, _⟩ := simple_spec hb hc (show k ≤ 256 by omega)
      have := Except.ok.inj (e1.symm.trans hts)
      subst this
      exact family_short (.inl e2)

theorem sameBo_noop : SameBo noop noop := by
  intro st n h hf hc
  refine ⟨rfl, ?_⟩
  intro ts hts
  have := Except.ok.inj hts
  subst this
  exact family_short hf

theorem sum_snd_filterMap {α : Type} (f : α × Nat → Option (UInt8 × Nat))
    (hf : ∀ p q, f p = some q → q.2 = p.2) (l : List (α × Nat)) :
    ((l.filterMap f).map Prod.snd).sum ≤ (l.map Prod.snd).sum := by
  induction l with
  | nil => simp
  | cons p l ih =>
    rw [List.filterMap_cons]
    cases h : f p with
    | none => simp only [List.map_cons, List.sum_cons]; omega
    | some q =>
      have := hf p q h
      simp only [List.map_cons, List.sum_cons]
      omega

theorem sum_snd_zip {α : Type} (l : List α) : ∀ (c : List Nat), ((l.zip c).map Prod.snd).sum ≤ c.sum := by
  induction l with
  | nil => intro c; simp
  | cons a l ih =>
    intro c
    cases c with
    | nil => simp
    | cons x c =>
      have := ih c
      simp only [List.zip_cons_cons, List.map_cons, List.sum_cons]
      omega

theorem sum_sumOf (l : List (UInt8 × Nat)) : (allBytes.map (sumOf l)).sum = (l.map Prod.snd).sum := by
  have := sum_pairs (fun _ => 1) l
  simp only [Nat.one_mul] at this
  exact this.symm

theorem uses_le (st : TokenStats) :
    (allBytes.map (byteUses st)).sum ≤ st.tokenCounts.sum + st.seqCounts.sum := by
  have e : ∀ b ∈ allBytes, byteUses st b = sumOf (tokPairs (st.tokenSet.tokens.zip st.tokenCounts)) b +
      sumOf (seqPairs (st.tokenSet.sequences.zip st.seqCounts)) b := by
    intro b _
    rw [sumOf_tokPairs, sumOf_seqPairs]
    rfl
  rw [List.map_congr_left e, sum_map_add', sum_sumOf, sum_sumOf]
  have h1 : ((tokPairs (st.tokenSet.tokens.zip st.tokenCounts)).map Prod.snd).sum ≤ _ :=
    sum_snd_filterMap _ (by
      intro p q h
      split at h
      · have := Option.some.inj h; rw [← this]
      · cases h) (st.tokenSet.tokens.zip st.tokenCounts)
  have h2 : ((seqPairs (st.tokenSet.sequences.zip st.seqCounts)).map Prod.snd).sum ≤ _ :=
    sum_snd_filterMap _ (by
      intro p q h
      split at h
      · have := Option.some.inj h; rw [← this]
      · cases h) (st.tokenSet.sequences.zip st.seqCounts)
  have h3 := sum_snd_zip st.tokenSet.tokens st.tokenCounts
  have h4 := sum_snd_zip st.tokenSet.sequences st.seqCounts
  omega

theorem sum_one (l : List UInt8) : (l.map (fun _ => 1)).sum = l.length := by
  induction l with
  | nil => rfl
  | cons a l ih => simp only [List.map_cons, List.sum_cons, List.length_cons, ih]; omega

theorem sum_zip_le (u : UInt8 → Nat) (qs : List Sequence) (hq : ∀ q ∈ qs, q.tokens.length ≤ 256) :
    ∀ (bs : List UInt8), ((bs.zip qs).map (fun p => u p.1 * p.2.tokens.length)).sum ≤ 256 * (bs.map u).sum := by
  induction qs with
  | nil => intro bs; simp
  | cons q qs ih =>
    intro bs
    cases bs with
    | nil => simp
    | cons b bs =>
      have h1 := ih (fun q hq' => hq q (by simp [hq'])) bs
      have h2 : u b * q.tokens.length ≤ u b * 256 := Nat.mul_le_mul_left _ (hq q (by simp))
      simp only [List.zip_cons_cons, List.map_cons, List.sum_cons]
      omega

/-- The cost of a candidate is bounded. -/
theorem cand_cost {u : UInt8 → Nat} (hu : ∀ b, 0 < u b) {n k : Nat} {p : Processing} {x : TokenSet × Nat}
    (h : Cand u n p k x) : ∃ t0, OptimizeBytes.costTokens (tab u) x.1.tokens 0 = .ok t0 ∧
      OptimizeBytes.costSeqs (tab u) x.1.sequences t0 = .ok x.2 ∧ x.2 ≤ 256 * (allBytes.map u).sum := by
  obtain ⟨t0, c1, c2⟩ := h.cost
  refine ⟨t0, c1, c2, ?_⟩
  obtain ⟨tops, hi, _⟩ := h.inv
  obtain ⟨bs, hb1, hb2⟩ := hi.bytes
  rw [(tab_full hu).bytes] at hb2
  have hsum : (tops.map u).sum + (bs.map u).sum = (allBytes.map u).sum := by
    rw [← List.sum_append, ← List.map_append]
    exact perm_sum (hb2.map u)
  rw [hi.tokens, costTokens_exts, costTokens_tops] at c1
  rw [costSeqs_eq u _ bs _ hb1] at c2
  have e1 := Except.ok.inj c1
  have e2 := Except.ok.inj c2
  have := sum_zip_le u x.1.sequences (family_short (.inr (.inr h.family))) bs
  omega

theorem huffLoop_same (hA : Exact A) {u : UInt8 → Nat} (hu : ∀ b, 0 < u b)
    (hs : 256 * (allBytes.map u).sum < 2 ^ 64) {n : Nat} (p : Processing) (ks : List Nat)
    (hk : ∀ k ∈ ks, 1 ≤ k ∧ k < n ∧ k < 256) : ∀ best,
    huffLoop A (tab u) n p ks best = OptimizeBytes.huffLoop (tab u) n p ks best := by
  induction ks with
  | nil => intro best; rfl
  | cons k ks ih =>
    intro best
    obtain ⟨k1, k2, k3⟩ := hk k (by simp)
    obtain ⟨x, hx⟩ := cand_exists hu p k1 k2 k3
    obtain ⟨t0, c1, c2, c3⟩ := cand_cost hu hx
    have hcs : countSum (tab u) < 2 ^ 64 := by
      have : countSum (tab u) = (allBytes.map u).sum := by
        unfold countSum tab
        rw [List.map_map]
        exact congrArg List.sum (List.map_congr_left (fun b _ => rfl))
      omega
    have hb := bytesTokenset_same hA (tab u) (n - k) k p hcs
    have hm := hb.trans hx.made
    obtain ⟨s2, s3⟩ := costSeqs_same hA _ _ _ _ c2 (by omega)
    obtain ⟨s1, _⟩ := costTokens_same hA _ _ _ _ c1 (by omega)
    rw [huffLoop, OptimizeBytes.huffLoop]
    rw [subR_of (by omega)]
    simp only [R.ok_bind]
    rw [hm, hx.made]
    simp only [R.ok_bind]
    rw [s1, c1]
    simp only [R.ok_bind]
    rw [s2, c2]
    simp only [R.ok_bind]
    exact ih (fun k hk' => hk k (by simp [hk'])) _

theorem sameBo_huff (hA : Exact A) : SameBo (huff A) OptimizeBytes.huff := by
  intro st n h hf hc
  have hu := Tokens.Family.usable hf
  have hsg := family_single hf
  refine ⟨?_, ?_⟩
  · unfold huff OptimizeBytes.huff
    rw [huffCounts_same hA st (fun c hc => by have := h.tok c hc; omega) (fun c hc => by have := h.seq c hc; omega),
      huffCounts_eq hu.accepted hc hsg]
    simp only [R.ok_bind]
    by_cases h1 : 1 ≤ n
    · rw [subR_of h1]
      simp only [R.ok_bind]
      have hpos : ∀ b, 0 < byteUses st b + 1 := fun b => by omega
      have hsum : (allBytes.map (fun b => byteUses st b + 1)).sum ≤ st.tokenCounts.sum + st.seqCounts.sum + 256 := by
        rw [sum_map_add', sum_one, allBytes_length]
        have := uses_le st
        omega
      have := h.sums
      rw [huffLoop_same hA hpos (by omega) _ _ (fun k hk => by have := ks_mem.1 hk; omega)]
    · rw [subR, if_neg (by omega)]
      simp only [R.error_bind]
  · intro ts hts
    by_cases hn : 3 ≤ n
    · obtain ⟨ts', e1, e2, _⟩ := huff_spec hu.accepted hc hsg hn
      have := Except.ok.inj (e1.symm.trans hts)
      subst this
      exact family_short (.inr (.inr e2))
    · obtain ⟨e, he⟩ := huff_small st (show n < 3 by omega)
      rw [he] at hts
      cases hts

theorem sameBo_for (hA : Exact A) (ty : TokenType) : SameBo (optimizerFor A ty) (Optimize.optimizerFor ty) := by
  cases ty
  · exact sameBo_simple hA
  · exact sameBo_simple hA
  · exact sameBo_simple hA
  · exact sameBo_noop
  · exact sameBo_huff hA

/-! ### Fresh statistics -/

/-- The data is small enough. -/
def SmallData (env : Env) : Prop := (env.sampler.samples.map List.length).sum < 2 ^ 45

theorem few_seqs {ts : TokenSet} (hf : Family ts) : ts.sequences.length ≤ 256 := by
  have hnd := seqs_nodup (Tokens.Family.usable hf).accepted
  have hsub : ts.sequences.map (·.string) ⊆ allBytes.map (fun b => [b]) := by
    intro s hs
    obtain ⟨q, hq, rfl⟩ := List.mem_map.1 hs
    have := family_single hf q hq
    obtain ⟨b, hb⟩ := List.length_eq_one_iff.1 this
    exact List.mem_map.2 ⟨b, mem_allBytes b, hb.symm⟩
  have := (hnd.subperm hsub).length_le
  rw [List.length_map, List.length_map, allBytes_length] at this
  exact this

theorem fresh_small {env : Env} (hd : SmallData env) {ts : TokenSet} (hf : Family ts) {st : TokenStats}
    (h : Fresh env ts st) : Small st ∧ Family st.tokenSet ∧ CountsFit st ∧ ts.sort = .ok st.tokenSet := by
  obtain ⟨ts', h1, h2⟩ := h
  have hf' := sort_family hf h1
  have hr := sort_inRange h1
  obtain ⟨_, _, _, _, _, hsh, _, _⟩ := sync_inv hr h2
  have e := hsh.tokenSet
  have hc := fit_of_sync hsh
  obtain ⟨k1, k2, k3, k4, k5⟩ := Props.C51_counters_bounded ts' hr 256 (by decide) (family_short hf')
    ⟨env.sampler.samples, 0⟩ env.initialSize 1 (by decide) st (.sync (show 0 < 1 <<< 25 by decide) h2) _ rfl
  simp only at k1 k2 k3 k4 k5
  have hsum := (Props.C05_accounting ts' hr _ _ _ h2).1
  refine ⟨⟨?_, ?_⟩, by rw [e]; exact hf', hc, by rw [e]; exact h1⟩
  · have : st.seqCounts.sum ≤ st.seqCounts.length * (env.sampler.samples.map List.length).sum :=
      Nat.le_trans (List.sum_le_card_nsmul _ _ k4) (by simp)
    have hl : st.seqCounts.length ≤ 256 := by
      rw [hc.seqs, e]
      exact few_seqs hf'
    have := Nat.mul_le_mul_right (env.sampler.samples.map List.length).sum hl
    unfold SmallData at hd
    omega
  · intro c hc
    have := k5 c hc
    unfold SmallData at hd
    omega

end MachineOpt
end Tokens
