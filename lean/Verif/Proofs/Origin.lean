import Verif.Proofs.Optimum

/-! Where the long tokens come from. -/

set_option linter.unusedSimpArgs false
set_option linter.unusedVariables false

namespace Tokens
open Spec TokenSet Batch OptimizeBytes

/-- The text of a pair that was seen is part of a sample. -/
theorem pair_occurs {ts : TokenSet} {samples : List Bytes} {n : Option Nat} {st : TokenStats}
    (hseq : SeqsInRange ts) (h : tokenizeFileSync ts samples n = .ok st) {k : Nat} {s : Bytes}
    (hk : 0 < st.pairCounts.getD k 0) (hp : PairText ts k s) : ∃ x ∈ samples, s <:+: x := by
  obtain ⟨tk, d, hn, ht, hw, hsh, _, hc⟩ := sync_inv hseq h
  have h1 : 0 < workSum d samples (.pair k) := by rw [← hc]; exact hk
  obtain ⟨x, hx, hpos⟩ := workSum_pos h1
  obtain ⟨ps, hl, _, ho⟩ := pair_cnt hw hpos
  obtain ⟨u, v, rfl⟩ := pairOcc_pos ps ho
  obtain ⟨t1, s1', s2', t2, g1, g2, ha', hb', e⟩ := spells_mid hl.optimal.1
  obtain ⟨s1, s2, ha, hb, e'⟩ := hp
  rw [ha] at ha'; rw [hb] at hb'
  simp only [Option.some.injEq, Token.str.injEq] at ha' hb'
  subst ha' hb' e'
  exact ⟨x, hx, t1, t2, by rw [e]; simp⟩

namespace Optimize

variable {env : Env} {S : TokenSet → Prop} {bo : BytesOptimizer} {Fam : TokenSet → Prop}
  {lo hi ntokens : Nat}

/-- All long tokens of `b` are long tokens of `a` or parts of samples. -/
def GrownFrom (env : Env) (a b : TokenSet) : Prop :=
  ∀ s ∈ longTokens b, s ∈ longTokens a ∨ ∃ x ∈ env.sampler.samples, s <:+: x

theorem GrownFrom.refl (a : TokenSet) : GrownFrom env a a := fun s hs => .inl hs

theorem GrownFrom.trans {a b c : TokenSet} (h1 : GrownFrom env a b) (h2 : GrownFrom env b c) :
    GrownFrom env a c := by
  intro s hs
  rcases h2 s hs with h | h
  · exact h1 s h
  · exact .inr h

theorem grown_sameSet {a b : TokenSet} (h : SameSet b a) : GrownFrom env a b :=
  fun s hs => .inl ((sameSet_long h).mem_iff.1 hs)

theorem grown_long {a b : TokenSet} (h : longTokens b = longTokens a) : GrownFrom env a b := by
  intro s hs
  rw [h] at hs
  exact .inl hs

theorem bpe_grown (B : Behaves bo Fam lo hi ntokens) {ts : TokenSet} (hf : Fam ts) {st : TokenStats}
    (hst : Fresh env ts st) {t : TokenSet} {d : Int} (h : addTokenBpe st = .ok (some (t, d))) :
    GrownFrom env ts t := by
  obtain ⟨f1, f2, f3, f4, f5, f6⟩ := fresh_facts B hf hst
  have fin : ∀ k s ts' i, 0 < st.pairCounts.getD k 0 → PairText st.tokenSet k s →
      st.tokenSet.addToken s = .ok (ts', i) → GrownFrom env ts ts' := by
    intro k s ts' i hk hp ha
    refine (grown_sameSet f2).trans ?_
    intro x hx
    have hne : s ≠ [] := by rintro rfl; cases ha
    rw [addToken_eq _ s hne] at ha
    cases ha
    obtain ⟨hm, hl⟩ := mem_longTokens.1 hx
    have hm : Token.str x ∈ st.tokenSet.tokens ++ [Token.str s] := hm
    rcases List.mem_append.1 hm with hm | hm
    · exact .inl (mem_longTokens.2 ⟨hm, hl⟩)
    · simp at hm
      subst hm
      exact .inr (pair_occurs f6 f4 hk hp)
  rcases bpe_cases f6 f4 with ⟨_, h1⟩ | ⟨k, s, ts', i, hk, hp, _, _, ha, _, _, hr⟩ |
      ⟨k, s, ts', i, hk, hp, _, _, ha, _, _, hr⟩
  · rw [h] at h1; cases h1
  · have := Except.ok.inj (h.symm.trans hr)
    simp only [Option.some.injEq, Prod.mk.injEq] at this
    rw [this.1]
    exact fin k s ts' i hk hp ha
  · have := Except.ok.inj (h.symm.trans hr)
    simp only [Option.some.injEq, Prod.mk.injEq] at this
    rw [this.1]
    exact fin k s ts' i hk hp ha

theorem addTok_grown (B : Behaves bo Fam lo hi ntokens) {ts t : TokenSet} (hf : Fam ts)
    (hlt : ts.tokens.length < ntokens) (h : AddTok env bo ts (some t)) : GrownFrom env ts t := by
  obtain ⟨st, b, c, h1, h2, h3, h4⟩ := h
  obtain ⟨f1, f2, f3, f4, f5, f6⟩ := fresh_facts B hf h1
  have byte : ∀ x d, addByte bo st = .ok (some (x, d)) → GrownFrom env ts x := by
    intro x d hx
    rcases addByte_ok B f1 f4 (by rw [f2.tokens.length_eq]; exact hlt) with ⟨_, a⟩ | ⟨tb, db, sb, a1, a2, a3, _⟩
    · rw [hx] at a; cases a
    · have := Except.ok.inj (hx.symm.trans a1)
      simp only [Option.some.injEq, Prod.mk.injEq] at this
      rw [this.1]
      exact (grown_sameSet f2).trans (grown_long a3)
  cases b with
  | none =>
    cases c with
    | none => simp [choose] at h4
    | some c => simp only [choose, Option.some.injEq] at h4; subst h4; exact bpe_grown B hf h1 h3
  | some b =>
    cases c with
    | none => simp only [choose, Option.some.injEq] at h4; subst h4; exact byte _ _ h2
    | some c =>
      simp only [choose] at h4
      split at h4
      · cases h4; exact byte _ _ h2
      · cases h4; exact bpe_grown B hf h1 h3

theorem removed_grown {ts ts1 : TokenSet} {idx : Nat} (hr : SeqsInRange ts)
    (h : ts.removeToken idx = .ok ts1) : GrownFrom env ts ts1 := by
  obtain ⟨_, hp, _⟩ := removeToken_spec hr h
  intro s hs
  obtain ⟨hm, hl⟩ := mem_longTokens.1 hs
  exact .inl (mem_longTokens.2 ⟨(List.eraseIdx_sublist _ _).mem (hp.mem_iff.1 hm), hl⟩)

theorem fresh_grown (B : Behaves bo Fam lo hi ntokens) {ts : TokenSet} (hf : Fam ts) {st : TokenStats}
    (hst : Fresh env ts st) : GrownFrom env ts st.cloneWithoutPairs.tokenSet :=
  grown_sameSet (fresh_facts B hf hst).2.1

theorem wp_removeLoop_grown (B : Behaves bo Fam lo hi ntokens) {ts : TokenSet} (hf : Fam ts)
    (hsize : ts.tokens.length = ntokens) (l : List Bytes) :
    ∀ rc, (∀ s ∈ l, s ∈ longTokens ts) →
    (removeLoop bo ts ntokens (tot env ts) l rc).wp env S (fun r => ∃ o rc', r = .ok (o, rc') ∧
      ∀ st, o = some st → GrownFrom env ts st.tokenSet) := by
  induction l with
  | nil => intro rc _; exact ⟨none, rc, rfl, by intro st h; cases h⟩
  | cons s rest ih =>
    intro rc hl
    obtain ⟨idx, ts1, h1, h2, h3, h4, h5⟩ := remove_long B hf (hl s (by simp))
    have ih' := ih (rc.bump s) (fun x hx => hl x (by simp [hx]))
    show (removeLoop bo ts ntokens (tot env ts) (s :: rest) rc).wp env S _
    unfold removeLoop
    refine wp_lift (a := idx) (by rw [h1]; rfl) ?_
    refine wp_lift h2 ?_
    refine wp_lift (a := ntokens - 1) (subR_of (by omega)) ?_
    refine wp_lift (a := ()) (rassert_true (by
      show (ts1.tokens.length == ntokens - 1) = true
      simp; omega)) ?_
    apply wp_bind'
    refine wp_mono _ ?_ (wp_and _ (wp_addToken_det B h3 (by omega)) (wp_addToken B h3 (by omega)))
    rintro r ⟨⟨o, rfl, ho⟩, o', e, hadd⟩
    cases e
    cases o with
    | none => exact ih'
    | some ts2 =>
      have ha := hadd ts2 rfl
      refine wp_getStats (B.family ha.fam) ?_
      intro st2 hst2
      by_cases hcmp : st2.cloneWithoutPairs.totalTokens < tot env ts
      · rw [if_pos hcmp]
        refine ⟨_, _, rfl, ?_⟩
        intro st h
        cases h
        exact (removed_grown (Tokens.Family.usable (B.family hf)).inRange h2).trans
          ((addTok_grown B h3 (by omega) ho).trans (fresh_grown B ha.fam hst2))
      · rw [if_neg hcmp]
        exact ih'

theorem wp_tradeByte_grown (B : Behaves bo Fam lo hi ntokens) {ts : TokenSet} (hf : Fam ts)
    (hsize : ts.tokens.length = ntokens) {st : TokenStats} (hst : Fresh env ts st) :
    (tradeByte bo ts ntokens st.cloneWithoutPairs).wp env S (fun r => ∃ o, r = .ok o ∧
      ∀ st', o = some st' → GrownFrom env ts st'.tokenSet) := by
  obtain ⟨f1, f2, f3, f4, f5, f6⟩ := fresh_facts B hf hst
  obtain ⟨s1, s2, s3, s4⟩ := fresh_sorted B hf hst
  obtain ⟨e1, e2, e3⟩ := size_of B hf
  have hb := B.bounds hf
  have hm := B.min_lo hf
  unfold tradeByte
  refine wp_lift (a := shortCount ts) (by rw [e1, e2, subR_of (by omega)]; congr 1; omega) ?_
  by_cases hgt : shortCount ts > ts.minBytesExtTokens
  · rw [if_pos hgt]
    refine wp_lift (a := shortCount ts - 1) (subR_of (by omega)) ?_
    have f5' : CountsFit st.cloneWithoutPairs := ⟨f5.tokens, f5.seqs⟩
    obtain ⟨ts1, h1, h2, h3, h4⟩ := B.opt (st := st.cloneWithoutPairs) (n := shortCount ts - 1) f1 f5'
      (by omega) (by omega)
    have g := size_of B h2
    have hlen : ts1.tokens.length = ntokens - 1 := by
      rw [← g.2.2, g.1, h3, h4]
      have := (sameSet_long f2).length_eq
      show min (shortCount ts - 1) hi + (longTokens st.tokenSet).length = ntokens - 1
      omega
    refine wp_lift h1 ?_
    refine wp_lift (a := ntokens - 1) (subR_of (by omega)) ?_
    refine wp_lift (a := ()) (rassert_true (by
      show (ts1.tokens.length == ntokens - 1) = true
      simp; omega)) ?_
    refine wp_getPairs (B.family h2) ?_
    intro st1 hst1
    obtain ⟨k1, k2, k3, k4, k5, k6⟩ := fresh_facts B h2 hst1
    rcases bpe_ok B k1 k4 with c1 | ⟨tc, dc, sc, c1, c2, c3, c4, c5, c6, c7⟩
    · refine wp_lift c1 ?_
      exact ⟨none, rfl, by intro st h; cases h⟩
    · refine wp_lift c1 ?_
      refine wp_getStats (B.family c2) ?_
      intro st2 hst2
      by_cases hcmp : st2.cloneWithoutPairs.totalTokens < st.cloneWithoutPairs.totalTokens
      · rw [if_pos hcmp]
        refine ⟨_, rfl, ?_⟩
        intro st' h
        cases h
        exact (grown_sameSet f2).trans ((grown_long h3).trans ((bpe_grown B h2 hst1 c1).trans
          (fresh_grown B c2 hst2)))
      · rw [if_neg hcmp]
        exact ⟨none, rfl, by intro st h; cases h⟩
  · rw [if_neg hgt]
    exact ⟨none, rfl, by intro st h; cases h⟩

theorem wp_removeAddToken_grown (B : Behaves bo Fam lo hi ntokens) {ts : TokenSet} (hf : Fam ts)
    (hsize : ts.tokens.length ≤ ntokens) (rc : Removals) :
    (removeAddToken bo ts ntokens rc).wp env S (fun r => ∃ o rc', r = .ok (o, rc') ∧
      ∀ st, o = some st → GrownFrom env ts st.tokenSet) := by
  unfold removeAddToken
  by_cases hlt : ts.tokens.length < ntokens
  · rw [if_pos (show ts.ntokens < ntokens from hlt)]
    apply wp_bind'
    refine wp_mono _ ?_ (wp_and _ (wp_addToken_det B hf hlt) (wp_addToken B hf hlt))
    rintro r ⟨⟨o, rfl, ho⟩, o', e, hadd⟩
    cases e
    cases o with
    | none => exact ⟨none, rc, rfl, by intro st h; cases h⟩
    | some ts' =>
      have ha := hadd ts' rfl
      refine wp_getStats (B.family ha.fam) ?_
      intro st hst
      refine ⟨_, _, rfl, ?_⟩
      intro st' h
      cases h
      exact (addTok_grown B hf hlt ho).trans (fresh_grown B ha.fam hst)
  · have heq : ts.tokens.length = ntokens := by omega
    rw [if_neg (show ¬ ts.ntokens < ntokens from hlt)]
    refine wp_lift (a := ()) (rassert_true (by
      show (ts.tokens.length == ntokens) = true
      simp; omega)) ?_
    refine wp_getStats (B.family hf) ?_
    intro st hst
    apply wp_bind'
    refine wp_mono _ ?_ (wp_tradeByte_grown B hf heq hst)
    rintro r ⟨o, rfl, ho⟩
    cases o with
    | some st' => exact ⟨_, _, rfl, ho⟩
    | none =>
      apply wp_bind'
      intro l hp hs
      have : tot env ts = st.cloneWithoutPairs.totalTokens := (fresh_tot hst).trans rfl
      show (removeLoop bo ts ntokens st.cloneWithoutPairs.totalTokens l rc).wp env S _
      rw [← this]
      exact wp_removeLoop_grown B hf heq l rc (by
        intro s hs
        rw [← longStrings_eq]
        exact hp.mem_iff.1 hs)

theorem wp_step_grown (B : Behaves bo Fam lo hi ntokens) {ts : TokenSet} (hf : Fam ts)
    (hsize : ts.tokens.length ≤ ntokens) (rc : Removals) :
    (optimizationStep bo ts ntokens rc).wp env S (fun r => ∃ o rc', r = .ok (o, rc') ∧
      ∀ ts', o = some ts' → GrownFrom env ts ts') := by
  unfold optimizationStep
  refine wp_getStats (B.family hf) ?_
  intro st hst
  obtain ⟨f1, f2, f3, f4, f5, f6⟩ := fresh_facts B hf hst
  obtain ⟨e1, e2, e3⟩ := size_of B hf
  have hb := B.bounds hf
  refine wp_lift (a := ntokens - (longTokens ts).length) (by rw [e2, subR_of (by omega)]) ?_
  have f5' : CountsFit st.cloneWithoutPairs := ⟨f5.tokens, f5.seqs⟩
  obtain ⟨ts1, h1, h2, h3, h4⟩ := B.opt (st := st.cloneWithoutPairs) (n := ntokens - (longTokens ts).length)
    f1 f5' (by omega) (by omega)
  refine wp_lift h1 ?_
  refine wp_getStats (B.family h2) ?_
  intro st1 hst1
  by_cases hcmp : st1.cloneWithoutPairs.totalTokens < st.cloneWithoutPairs.totalTokens
  · rw [if_pos hcmp]
    refine ⟨_, _, rfl, ?_⟩
    intro ts' h
    cases h
    exact (grown_sameSet f2).trans ((grown_long h3).trans (fresh_grown B h2 hst1))
  · rw [if_neg hcmp]
    apply wp_bind'
    refine wp_mono _ ?_ (wp_and _ (wp_removeAddToken_grown B hf hsize rc) (wp_removeAddToken B hf hsize rc))
    rintro r ⟨⟨o, rc', rfl, ho⟩, o', rc'', e, ho'⟩
    cases e
    cases o with
    | none => exact ⟨none, rc', rfl, by intro ts' h; cases h⟩
    | some st2 =>
      obtain ⟨ts', hbet, full, hfr, rfl⟩ := ho' st2 rfl
      have hb' := better_sorted B hbet hfr
      refine wp_lift (a := ()) (rassert_true (by
        show decide (full.tokenSet.tokens.length ≤ ntokens) = true
        simpa using hb'.size)) ?_
      refine ⟨_, _, rfl, ?_⟩
      intro x h
      cases h
      exact ho _ rfl

/-- What the loop may save. -/
def SavableFrom (env : Env) (base : TokenSet) (ts : TokenSet) : Prop := GrownFrom env base ts

theorem loop_grown (B : Behaves bo Fam lo hi ntokens) (he : EnvOk env) {base ts : TokenSet} {rc : Removals}
    {w w' : World} {r : R TokenSet} (h : Loop env bo ntokens ts rc w r w') :
    LoopSet Fam ntokens ts → WorldOk env w → GrownFrom env base ts →
    (∀ ts', r = .ok ts' → GrownFrom env base ts') ∧ Wrote (GrownFrom env base) w w' := by
  have quiet : ∀ {ts rc w r w'}, LoopSet Fam ntokens ts → WorldOk env w →
      Run env (optimizationStep bo ts ntokens rc) w r w' →
      WorldOk env w' ∧ Wrote (fun _ => False) w w' ∧ ∃ o rc', r = .ok (o, rc') ∧
        ∀ ts', o = some ts' → GrownFrom env ts ts' ∧ LoopSet Fam ntokens ts' := by
    intro ts rc w r w' hl hw hr
    obtain ⟨⟨⟨o, rc', e, h1⟩, o', rc'', e', h2⟩, h3, h4⟩ := wp_sound he hr (wp_and _
      (wp_step_grown (S := fun _ => False) B hl.fam hl.size rc) (wp_step B hl.fam hl.size rc)) hw
    refine ⟨h3, h4, o, rc', e, ?_⟩
    intro ts' ho
    rw [e] at e'
    simp only [Except.ok.injEq, Prod.mk.injEq] at e'
    have hb := (h2 ts' (by rw [← e'.1]; exact ho)).1
    exact ⟨h1 ts' ho, hb.fam, hb.size⟩
  have save : ∀ {ts w r w'}, LoopSet Fam ntokens ts → WorldOk env w → GrownFrom env base ts →
      Run env (maybeSave ts) w r w' → WorldOk env w' ∧ Wrote (GrownFrom env base) w w' := by
    intro ts w r w' hl hw hg hr
    obtain ⟨_, b, c⟩ := wp_sound he hr (wp_maybeSave (S := GrownFrom env base) hg
      (Tokens.Family.usable (B.family hl.fam)).inRange) hw
    exact ⟨b, c⟩
  induction h with
  | stop hs =>
    intro hl hw hg
    obtain ⟨h1, h2, _⟩ := quiet hl hw hs
    exact ⟨fun ts' e => by cases e; exact hg, h2.mono (fun _ h => h.elim)⟩
  | fail hs =>
    intro hl hw hg
    obtain ⟨h1, h2, _⟩ := quiet hl hw hs
    exact ⟨fun ts' e => (by cases e), h2.mono (fun _ h => h.elim)⟩
  | again hs hsave _ ih =>
    intro hl hw hg
    obtain ⟨h1, h2, o, rc', h3, h4⟩ := quiet hl hw hs
    cases h3
    obtain ⟨k1, k2⟩ := h4 _ rfl
    obtain ⟨g1, g2⟩ := save k2 h1 (hg.trans k1) hsave
    obtain ⟨m1, m2⟩ := ih k2 g1 (hg.trans k1)
    exact ⟨m1, (h2.mono (fun _ h => h.elim)).trans (g2.trans m2)⟩
  | saveFail hs hsave =>
    intro hl hw hg
    obtain ⟨h1, h2, o, rc', h3, h4⟩ := quiet hl hw hs
    cases h3
    obtain ⟨k1, k2⟩ := h4 _ rfl
    obtain ⟨g1, g2⟩ := save k2 h1 (hg.trans k1) hsave
    exact ⟨fun ts' e => (by cases e), (h2.mono (fun _ h => h.elim)).trans g2⟩

theorem impl_grown (B : Behaves bo Fam lo hi ntokens) (he : EnvOk env) {ts : TokenSet}
    {w w' : World} {st : TokenStats} (hl : LoopSet Fam ntokens ts) (hw : WorldOk env w)
    (h : Impl env bo ntokens ts w (.ok st) w') :
    GrownFrom env ts st.tokenSet ∧ Wrote (GrownFrom env ts) w w' := by
  cases h with
  | @done _ _ tsl _ _ _ h1 h2 h3 =>
    have hwp : (getStats ts).wp env (GrownFrom env ts) (fun r => ∃ st, r = .ok st) :=
      ⟨B.family hl.fam, fun st _ => ⟨_, rfl⟩⟩
    obtain ⟨_, a1, a2⟩ := wp_sound he h1 hwp hw
    obtain ⟨b1, b2⟩ := loop_grown B he h2 hl a1 (GrownFrom.refl ts)
    obtain ⟨ts'', e, c1, _, _, c4, _⟩ := loop_ok B he h2 hl a1
    have e := Except.ok.inj e
    subst e
    obtain ⟨ts3, hs⟩ := (sort_ok_iff tsl).2 (Tokens.Family.usable (B.family c1.fam)).inRange
    have hF3 : Family ts3 := sort_family (B.family c1.fam) hs
    have hwp3 : (finish tsl).wp env (GrownFrom env ts)
        (fun r => ∃ full, r = .ok full.cloneWithoutPairs ∧ Fresh env ts3 full) := by
      unfold finish
      refine wp_lift hs ?_
      exact ⟨hF3, fun st hst => ⟨st, rfl, hst⟩⟩
    obtain ⟨⟨full, k1, k2⟩, k3, k4⟩ := wp_sound he h3 hwp3 c4
    have k1 := Except.ok.inj k1
    subst k1
    obtain ⟨t, q1, q2⟩ := k2
    have hset : full.tokenSet = t := by
      obtain ⟨_, _, _, _, _, hsh, _, _⟩ := sync_inv (sort_inRange q1) q2
      exact hsh.tokenSet
    refine ⟨?_, a2.trans (b2.trans k4)⟩
    show GrownFrom env ts full.tokenSet
    rw [hset]
    exact (b1 _ rfl).trans ((grown_sameSet (sort_sameSet hs).1).trans (grown_sameSet (sort_sameSet q1).1))

end Optimize
end Tokens
