import Verif.Proofs.Wp
import Verif.Proofs.Saving

/-! One step of the optimizer, for any byte optimizer that behaves. -/

set_option linter.unusedSimpArgs false
set_option linter.unusedVariables false

namespace Tokens
open Spec TokenSet Batch OptimizeBytes

namespace Optimize

/-- What the proofs need to know about a byte optimizer and the family it works on. -/
structure Behaves (bo : BytesOptimizer) (Fam : TokenSet → Prop) (lo hi ntokens : Nat) : Prop where
  family : ∀ {ts}, Fam ts → Family ts
  keep : ∀ {a b}, Fam a → Usable b → Shrinks b a → SameHeader b a → shortCount b = shortCount a → Fam b
  bounds : ∀ {ts}, Fam ts → lo ≤ shortCount ts ∧ shortCount ts ≤ hi
  min_lo : ∀ {ts}, Fam ts → lo ≤ ts.minBytesExtTokens
  opt : ∀ {st n}, Fam st.tokenSet → CountsFit st → lo ≤ n → n ≤ ntokens →
    ∃ ts', bo st n = .ok ts' ∧ Fam ts' ∧ longTokens ts' = longTokens st.tokenSet ∧
      shortCount ts' = min n hi

/-- One more byte token never costs output tokens. -/
def Monotone (bo : BytesOptimizer) (Fam : TokenSet → Prop) : Prop :=
  ∀ st ts', Fam st.tokenSet → CountsFit st → bo st (shortCount st.tokenSet + 1) = .ok ts' →
    bytesTotal ts' st ≤ bytesTotal st.tokenSet st

/-- The number of output tokens that the data needs with `ts`. -/
noncomputable def tot (env : Env) (ts : TokenSet) : Nat :=
  open Classical in if h : ∃ st, Fresh env ts st then h.choose.totalTokens else 0

theorem fresh_tot {env : Env} {ts : TokenSet} {st : TokenStats} (h : Fresh env ts st) :
    tot env ts = st.totalTokens := by
  have hx : ∃ st, Fresh env ts st := ⟨st, h⟩
  unfold tot
  rw [dif_pos hx, fresh_unique hx.choose_spec h]

variable {env : Env} {S : TokenSet → Prop} {bo : BytesOptimizer} {Fam : TokenSet → Prop}
  {lo hi ntokens : Nat}

theorem tot_sync {ts : TokenSet} (hf : Family ts) {st : TokenStats}
    (h : tokenizeFileSync ts env.sampler.samples env.initialSize = .ok st) :
    tot env ts = st.totalTokens := by
  obtain ⟨x, hx⟩ := fresh_exists env hf
  rw [fresh_tot hx]
  obtain ⟨ts', h1, h2⟩ := hx
  exact total_sameSet (sort_sameSet h1).1 (sort_inRange h1) (Tokens.Family.usable hf).inRange h2 h

theorem fresh_facts (B : Behaves bo Fam lo hi ntokens) {ts : TokenSet} {st : TokenStats} (hf : Fam ts)
    (h : Fresh env ts st) : Fam st.tokenSet ∧ SameSet st.tokenSet ts ∧ ts.sort = .ok st.tokenSet ∧
      tokenizeFileSync st.tokenSet env.sampler.samples env.initialSize = .ok st ∧
      CountsFit st ∧ SeqsInRange st.tokenSet := by
  obtain ⟨ts', h1, h2⟩ := h
  have hr := sort_inRange h1
  obtain ⟨_, _, _, _, _, hsh, _, _⟩ := sync_inv hr h2
  have e := hsh.tokenSet
  have hss := (sort_sameSet h1).1
  have hu := usable_sameSet (Tokens.Family.usable (B.family hf)) hss hr
  have hF : Fam ts' := B.keep hf hu (shrinks_sameSet hss) hss.header (sameSet_short hss)
  rw [e]
  exact ⟨hF, hss, h1, h2, fit_of_sync hsh, hr⟩

theorem fresh_sorted (B : Behaves bo Fam lo hi ntokens) {ts : TokenSet} {st : TokenStats} (hf : Fam ts)
    (h : Fresh env ts st) : st.tokenSet.sort = .ok st.tokenSet ∧ tot env st.tokenSet = tot env ts ∧
      st.tokenSet.tokens.length = ts.tokens.length ∧ shortCount st.tokenSet = shortCount ts := by
  obtain ⟨h1, h2, h3, h4, _, _⟩ := fresh_facts B hf h
  refine ⟨sort_idem h3, ?_, h2.tokens.length_eq, sameSet_short h2⟩
  rw [fresh_tot h, tot_sync (B.family h1) h4]

theorem size_of (B : Behaves bo Fam lo hi ntokens) {ts : TokenSet} (hf : Fam ts) :
    ts.ntokens = shortCount ts + (longTokens ts).length ∧ ts.nLongTokens = (longTokens ts).length ∧
      ts.ntokens = ts.tokens.length :=
  ⟨size_split (Tokens.Family.usable (B.family hf)), nLong_eq ts, rfl⟩

/-- `add_byte`. -/
theorem addByte_ok (B : Behaves bo Fam lo hi ntokens) {st : TokenStats} (hf : Fam st.tokenSet)
    {samples : List Bytes} {n : Option Nat} (h : tokenizeFileSync st.tokenSet samples n = .ok st)
    (hlt : st.tokenSet.tokens.length < ntokens) :
    (shortCount st.tokenSet = hi ∧ addByte bo st = .ok none) ∨
    ∃ ts' d st', addByte bo st = .ok (some (ts', d)) ∧ Fam ts' ∧
      longTokens ts' = longTokens st.tokenSet ∧ shortCount ts' = shortCount st.tokenSet + 1 ∧
      bo st (shortCount st.tokenSet + 1) = .ok ts' ∧
      d = (bytesTotal st.tokenSet st : Int) - bytesTotal ts' st ∧
      tokenizeFileSync ts' samples n = .ok st' ∧ (st'.totalTokens : Int) + d ≤ st.totalTokens := by
  have hF := B.family hf
  have hu := Tokens.Family.usable hF
  obtain ⟨_, _, _, _, _, hsh, _, _⟩ := sync_inv hu.inRange h
  have hc := fit_of_sync hsh
  obtain ⟨e1, e2, e3⟩ := size_of B hf
  obtain ⟨b1, b2⟩ := B.bounds hf
  obtain ⟨ts', h1, h2, h3, h4⟩ := B.opt (n := shortCount st.tokenSet + 1) hf hc (by omega) (by omega)
  have hu' := Tokens.Family.usable (B.family h2)
  obtain ⟨f1, f2, f3⟩ := size_of B h2
  have hsub : subR st.tokenSet.ntokens st.tokenSet.nLongTokens = .ok (shortCount st.tokenSet) := by
    rw [e1, e2, subR_of (by omega)]
    congr 1
    omega
  have hold := countTokensInBytes_eq hu.accepted hc
  have hnew := countTokensInBytes_eq hu'.accepted hc
  by_cases hhi : shortCount st.tokenSet = hi
  · left
    refine ⟨hhi, ?_⟩
    unfold addByte
    rw [hold, R.ok_bind, hsub, R.ok_bind, h1, R.ok_bind, if_pos ?_]
    rw [f1, e1, h3, h4]
    omega
  · right
    obtain ⟨st', g1, g2⟩ := byte_saving hu.inRange h hu'.accepted hu'.inRange
      (fun q hq e => by have := family_seqLen (B.family h2) q hq; rw [e] at this; simp at this)
      (family_single hF) (by
        intro s hs hm
        have : s ∈ longTokens ts' := by rw [h3]; exact mem_longTokens.2 ⟨hm, hs⟩
        exact (mem_longTokens.1 this).1)
    refine ⟨ts', _, st', ?_, h2, h3, by omega, h1, rfl, g1, by omega⟩
    unfold addByte
    rw [hold, R.ok_bind, hsub, R.ok_bind, h1, R.ok_bind, if_neg ?_, hnew, R.ok_bind]
    rw [f1, e1, h3, h4]
    omega

theorem add_long {ts ts' : TokenSet} {s : Bytes} {i : Nat} (hl : 2 ≤ s.length)
    (ha : ts.addToken s = .ok (ts', i)) :
    SameHeader ts' ts ∧ shortCount ts' = shortCount ts ∧ ts'.tokens.length = ts.tokens.length + 1 := by
  have hne : s ≠ [] := by rintro rfl; simp at hl
  rw [addToken_eq ts s hne] at ha
  cases ha
  refine ⟨⟨rfl, rfl, rfl, rfl⟩, ?_, by simp⟩
  unfold shortCount byteTokens
  rw [List.filterMap_append]
  match s, hl with
  | a :: b :: t, _ => simp

/-- `add_token_bpe`. -/
theorem bpe_ok (B : Behaves bo Fam lo hi ntokens) {st : TokenStats} (hf : Fam st.tokenSet)
    {samples : List Bytes} {n : Option Nat} (h : tokenizeFileSync st.tokenSet samples n = .ok st) :
    addTokenBpe st = .ok none ∨
    ∃ ts' d st', addTokenBpe st = .ok (some (ts', d)) ∧ Fam ts' ∧ 0 ≤ d ∧
      shortCount ts' = shortCount st.tokenSet ∧
      ts'.tokens.length = st.tokenSet.tokens.length + 1 ∧
      tokenizeFileSync ts' samples n = .ok st' ∧ st'.totalTokens < st.totalTokens := by
  have hF := B.family hf
  have hu := Tokens.Family.usable hF
  have fin : ∀ k s ts' i (d : Int), 0 < st.pairCounts.getD k 0 → PairText st.tokenSet k s →
      st.tokenSet.addToken s = .ok (ts', i) → Token.str s ∉ st.tokenSet.tokens → 2 ≤ s.length → 0 ≤ d →
      addTokenBpe st = .ok (some (ts', d)) →
      ∃ ts' d st', addTokenBpe st = .ok (some (ts', d)) ∧ Fam ts' ∧ 0 ≤ d ∧
      shortCount ts' = shortCount st.tokenSet ∧
      ts'.tokens.length = st.tokenSet.tokens.length + 1 ∧
      tokenizeFileSync ts' samples n = .ok st' ∧ st'.totalTokens < st.totalTokens := by
    intro k s ts' i d hk hp ha hn hl hd hr
    obtain ⟨st', g1, g2, _⟩ := pair_saving hu.inRange h hk hp ha
    obtain ⟨a1, a2, a3⟩ := add_long hl ha
    exact ⟨ts', d, st', hr, B.keep hf (usable_add hu hn ha) (shrinks_add hu.inRange ha) a1 a2, hd, a2, a3,
      g1, by omega⟩
  rcases bpe_cases hu.inRange h with ⟨h0, h1⟩ | ⟨k, s, ts', i, hk, hp, _, _, ha, hn, hl, hr⟩ |
      ⟨k, s, ts', i, hk, hp, _, _, ha, hn, hl, hr⟩
  · exact .inl h1
  · exact .inr (fin k s ts' i _ hk hp ha hn hl (by omega) hr)
  · exact .inr (fin k s ts' i _ hk hp ha hn hl (by omega) hr)

/-- The postcondition of adding one token. -/
structure Added (env : Env) (bo : BytesOptimizer) (Fam : TokenSet → Prop) (hi : Nat) (ts ts' : TokenSet) :
    Prop where
  fam : Fam ts'
  size : ts'.tokens.length = ts.tokens.length + 1
  less : (Monotone bo Fam ∨ shortCount ts = hi) → tot env ts' ≤ tot env ts
  short : shortCount ts = hi → shortCount ts' = hi

theorem wp_addToken (B : Behaves bo Fam lo hi ntokens) {ts : TokenSet} (hf : Fam ts)
    (hlt : ts.tokens.length < ntokens) :
    (addToken bo ts).wp env S (fun r => ∃ o, r = .ok o ∧ ∀ ts', o = some ts' → Added env bo Fam hi ts ts') := by
  unfold addToken
  refine wp_getPairs (B.family hf) ?_
  intro st hst
  obtain ⟨f1, f2, f3, f4, f5, f6⟩ := fresh_facts B hf hst
  obtain ⟨s1, s2, s3, s4⟩ := fresh_sorted B hf hst
  have htot := fresh_tot hst
  -- the byte candidate
  have cb : ∀ ts' d st', Fam ts' → longTokens ts' = longTokens st.tokenSet →
      shortCount ts' = shortCount st.tokenSet + 1 → bo st (shortCount st.tokenSet + 1) = .ok ts' →
      d = (bytesTotal st.tokenSet st : Int) - bytesTotal ts' st →
      tokenizeFileSync ts' env.sampler.samples env.initialSize = .ok st' →
      (st'.totalTokens : Int) + d ≤ st.totalTokens → Added env bo Fam hi ts ts' := by
    intro ts' d st' h1 h2 h3 h4 h5 h6 h7
    have e1 := (size_of B h1)
    have e2 := (size_of B f1)
    have b2 := (B.bounds h1).2
    refine ⟨h1, ?_, ?_, ?_⟩
    · rw [← s3, ← e1.2.2, ← e2.2.2, e1.1, e2.1, h2, h3]; omega
    · rintro (hm | hm)
      · have := hm st ts' f1 f5 h4
        rw [tot_sync (B.family h1) h6, htot]
        omega
      · omega
    · intro hm; omega
  rcases addByte_ok B f1 f4 (by omega) with ⟨a1, a2⟩ | ⟨tb, db, sb, a1, a2, a3, a4, a5, a6, a7, a8⟩
  · refine wp_lift a2 ?_
    rcases bpe_ok B f1 f4 with c1 | ⟨tc, dc, sc, c1, c2, c3, c4, c5, c6, c7⟩
    · refine wp_lift c1 ?_
      exact ⟨none, rfl, by intro ts' h; cases h⟩
    · refine wp_lift c1 ?_
      refine ⟨some tc, rfl, ?_⟩
      intro ts' h
      cases h
      refine ⟨c2, by omega, ?_, by omega⟩
      intro _
      rw [tot_sync (B.family c2) c6, htot]; omega
  · refine wp_lift a1 ?_
    rcases bpe_ok B f1 f4 with c1 | ⟨tc, dc, sc, c1, c2, c3, c4, c5, c6, c7⟩
    · refine wp_lift c1 ?_
      refine ⟨some tb, rfl, ?_⟩
      intro ts' h
      cases h
      exact cb _ _ _ a2 a3 a4 a5 a6 a7 a8
    · refine wp_lift c1 ?_
      refine ⟨_, rfl, ?_⟩
      intro ts' h
      simp only [choose] at h
      split at h
      · cases h
        exact cb _ _ _ a2 a3 a4 a5 a6 a7 a8
      · cases h
        refine ⟨c2, by omega, ?_, by omega⟩
        intro _
        rw [tot_sync (B.family c2) c6, htot]; omega

/-- Sequences never list a token of two or more bytes. -/
theorem family_uses_short {ts : TokenSet} (h : Family ts) {idx : Nat} {s : Bytes}
    (ht : ts.tokens[idx]? = some (.str s)) (hl : 1 < s.length) : ∀ q ∈ ts.sequences, idx ∉ q.tokens := by
  intro q hq hm
  have hx : some (Token.str s) ∈ listed ts q := by
    unfold listed
    rw [← ht]
    exact List.mem_map.2 ⟨idx, hm, rfl⟩
  have hmm : (q.string, listed ts q) ∈ meaning ts := List.mem_map.2 ⟨q, hq, rfl⟩
  rcases h with h | h | h
  · obtain ⟨_, _, hcodes⟩ := h.params
    obtain ⟨b, ds, e, _⟩ := hcodes _ hmm
    simp only [Prod.mk.injEq] at e
    rw [e.2] at hx
    simp at hx
  · rw [h.noSeq] at hq; simp at hq
  · obtain ⟨b, c, ds, _, e⟩ := h.codes _ hmm
    simp only [Prod.mk.injEq] at e
    rw [e.2] at hx
    simp at hx
    rw [hx] at hl; simp at hl

theorem remove_long (B : Behaves bo Fam lo hi ntokens) {ts : TokenSet} (hf : Fam ts) {s : Bytes}
    (hs : s ∈ longTokens ts) : ∃ idx ts1, ts.findToken s = some idx ∧ ts.removeToken idx = .ok ts1 ∧
      Fam ts1 ∧ ts1.tokens.length + 1 = ts.tokens.length ∧ shortCount ts1 = shortCount ts := by
  have hF := B.family hf
  have hu := Tokens.Family.usable hF
  obtain ⟨hm, hl⟩ := mem_longTokens.1 hs
  cases hfind : ts.findToken s with
  | none => exact absurd hm (findToken_none.1 hfind)
  | some idx =>
    have hget := (findToken_some hfind).1
    obtain ⟨hlt, _⟩ := List.getElem?_eq_some_iff.1 hget
    obtain ⟨ts1, hr⟩ := (removeToken_ok_iff ts idx).2 ⟨hlt, family_uses_short hF hget hl⟩
    obtain ⟨hh, hp, _, _, _⟩ := removeToken_spec hu.inRange hr
    have hshort : shortCount ts1 = shortCount ts := by
      unfold shortCount
      rw [hh.nExt]
      congr 1
      unfold byteTokens
      rw [(hp.filterMap _).length_eq]
      have key : ∀ (l : List Token) (i : Nat), l[i]? = some (.str s) →
          ((l.eraseIdx i).filterMap (fun t => match t with | .str [b] => some b | _ => none)).length =
          (l.filterMap (fun t => match t with | .str [b] => some b | _ => none)).length := by
        intro l
        induction l with
        | nil => intro i h; simp at h
        | cons t l ih =>
          intro i h
          cases i with
          | zero =>
            simp at h
            subst h
            match s, hl with
            | a :: b :: u, _ => simp
          | succ i =>
            have := ih i (by simpa using h)
            rw [List.eraseIdx_cons_succ, List.filterMap_cons, List.filterMap_cons]
            split
            · exact this
            · simp [this]
      exact key _ _ hget
    refine ⟨idx, ts1, rfl, hr, B.keep hf (usable_remove hu hget hl hr) (shrinks_remove hu.inRange hr) hh hshort,
      ?_, hshort⟩
    rw [hp.length_eq, List.length_eraseIdx]
    split <;> omega

theorem wp_removeLoop (B : Behaves bo Fam lo hi ntokens) {ts : TokenSet} (hf : Fam ts)
    (hsize : ts.tokens.length = ntokens) (l : List Bytes) :
    ∀ rc, (∀ s ∈ l, s ∈ longTokens ts) →
    (removeLoop bo ts ntokens (tot env ts) l rc).wp env S (fun r => ∃ o rc', r = .ok (o, rc') ∧
      ∀ st, o = some st → ∃ ts', Fam ts' ∧ ts'.tokens.length = ntokens ∧ tot env ts' < tot env ts ∧
        ∃ full, Fresh env ts' full ∧ st = full.cloneWithoutPairs) := by
  induction l with
  | nil => intro rc _; exact ⟨none, rc, rfl, by intro st h; cases h⟩
  | cons s rest ih =>
    intro rc hl
    obtain ⟨idx, ts1, h1, h2, h3, h4, h5⟩ := remove_long B hf (hl s (by simp))
    have ih' := ih (rc.bump s) (fun x hx => hl x (by simp [hx]))
    show (removeLoop bo ts ntokens (tot env ts) (s :: rest) rc).wp env S _
    unfold removeLoop
    refine wp_lift (a := idx) (by rw [h1]; rfl) ?_
    refine wp_lift h2 ?_
    refine wp_lift (a := ntokens - 1) (subR_of (by omega)) ?_
    refine wp_lift (a := ()) (rassert_true (by
      show (ts1.tokens.length == ntokens - 1) = true
      simp; omega)) ?_
    apply wp_bind'
    refine wp_mono _ ?_ (wp_addToken B h3 (by omega))
    rintro r ⟨o, rfl, ho⟩
    cases o with
    | none => exact ih'
    | some ts2 =>
      have ha := ho ts2 rfl
      refine wp_getStats (B.family ha.fam) ?_
      intro st2 hst2
      have htot := fresh_tot hst2
      by_cases hcmp : st2.cloneWithoutPairs.totalTokens < tot env ts
      · rw [if_pos hcmp]
        refine ⟨_, _, rfl, ?_⟩
        intro st h
        cases h
        refine ⟨ts2, ha.fam, by rw [ha.size]; omega, ?_, st2, hst2, rfl⟩
        rw [htot]; exact hcmp
      · rw [if_neg hcmp]
        exact ih'

/-- A set that is one step better. -/
structure Better (env : Env) (bo : BytesOptimizer) (Fam : TokenSet → Prop) (hi ntokens : Nat)
    (ts ts' : TokenSet) : Prop where
  fam : Fam ts'
  size : ts'.tokens.length ≤ ntokens
  progress : (tot env ts' < tot env ts ∧ ts.tokens.length ≤ ts'.tokens.length) ∨
    ts'.tokens.length = ts.tokens.length + 1
  less : (Monotone bo Fam ∨ shortCount ts = hi ∨ ts.tokens.length = ntokens) → tot env ts' ≤ tot env ts
  keeps : (Monotone bo Fam ∨ shortCount ts = hi ∨ ts.tokens.length = ntokens) →
    (Monotone bo Fam ∨ shortCount ts' = hi ∨ ts'.tokens.length = ntokens)

theorem wp_tradeByte (B : Behaves bo Fam lo hi ntokens) {ts : TokenSet} (hf : Fam ts)
    (hsize : ts.tokens.length = ntokens) {st : TokenStats} (hst : Fresh env ts st) :
    (tradeByte bo ts ntokens st.cloneWithoutPairs).wp env S (fun r => ∃ o, r = .ok o ∧
      ∀ st', o = some st' → ∃ ts', Fam ts' ∧ ts'.tokens.length = ntokens ∧ tot env ts' < tot env ts ∧
        ∃ full, Fresh env ts' full ∧ st' = full.cloneWithoutPairs) := by
  obtain ⟨f1, f2, f3, f4, f5, f6⟩ := fresh_facts B hf hst
  obtain ⟨s1, s2, s3, s4⟩ := fresh_sorted B hf hst
  obtain ⟨e1, e2, e3⟩ := size_of B hf
  have hb := B.bounds hf
  have hm := B.min_lo hf
  unfold tradeByte
  refine wp_lift (a := shortCount ts) (by rw [e1, e2, subR_of (by omega)]; congr 1; omega) ?_
  by_cases hgt : shortCount ts > ts.minBytesExtTokens
  · rw [if_pos hgt]
    refine wp_lift (a := shortCount ts - 1) (subR_of (by omega)) ?_
    have f5' : CountsFit st.cloneWithoutPairs := ⟨f5.tokens, f5.seqs⟩
    obtain ⟨ts1, h1, h2, h3, h4⟩ := B.opt (st := st.cloneWithoutPairs) (n := shortCount ts - 1) f1 f5'
      (by omega) (by omega)
    have g := size_of B h2
    have hlen : ts1.tokens.length = ntokens - 1 := by
      rw [← g.2.2, g.1, h3, h4]
      have := (sameSet_long f2).length_eq
      show min (shortCount ts - 1) hi + (longTokens st.tokenSet).length = ntokens - 1
      omega
    refine wp_lift h1 ?_
    refine wp_lift (a := ntokens - 1) (subR_of (by omega)) ?_
    refine wp_lift (a := ()) (rassert_true (by
      show (ts1.tokens.length == ntokens - 1) = true
      simp; omega)) ?_
    refine wp_getPairs (B.family h2) ?_
    intro st1 hst1
    obtain ⟨k1, k2, k3, k4, k5, k6⟩ := fresh_facts B h2 hst1
    obtain ⟨m1, m2, m3, m4⟩ := fresh_sorted B h2 hst1
    rcases bpe_ok B k1 k4 with c1 | ⟨tc, dc, sc, c1, c2, c3, c4, c5, c6, c7⟩
    · refine wp_lift c1 ?_
      exact ⟨none, rfl, by intro st h; cases h⟩
    · refine wp_lift c1 ?_
      refine wp_getStats (B.family c2) ?_
      intro st2 hst2
      have htot := fresh_tot hst2
      by_cases hcmp : st2.cloneWithoutPairs.totalTokens < st.cloneWithoutPairs.totalTokens
      · rw [if_pos hcmp]
        refine ⟨_, rfl, ?_⟩
        intro st' h
        cases h
        refine ⟨tc, c2, by omega, ?_, st2, hst2, rfl⟩
        rw [htot, fresh_tot hst]; exact hcmp
      · rw [if_neg hcmp]
        exact ⟨none, rfl, by intro st h; cases h⟩
  · rw [if_neg hgt]
    exact ⟨none, rfl, by intro st h; cases h⟩

theorem wp_removeAddToken (B : Behaves bo Fam lo hi ntokens) {ts : TokenSet} (hf : Fam ts)
    (hsize : ts.tokens.length ≤ ntokens) (rc : Removals) :
    (removeAddToken bo ts ntokens rc).wp env S (fun r => ∃ o rc', r = .ok (o, rc') ∧
      ∀ st, o = some st → ∃ ts', Better env bo Fam hi ntokens ts ts' ∧
        ∃ full, Fresh env ts' full ∧ st = full.cloneWithoutPairs) := by
  unfold removeAddToken
  by_cases hlt : ts.tokens.length < ntokens
  · rw [if_pos (show ts.ntokens < ntokens from hlt)]
    apply wp_bind'
    refine wp_mono _ ?_ (wp_addToken B hf hlt)
    rintro r ⟨o, rfl, ho⟩
    cases o with
    | none => exact ⟨none, rc, rfl, by intro st h; cases h⟩
    | some ts' =>
      have ha := ho ts' rfl
      refine wp_getStats (B.family ha.fam) ?_
      intro st hst
      refine ⟨_, _, rfl, ?_⟩
      intro st' h
      cases h
      refine ⟨ts', ⟨ha.fam, by rw [ha.size]; omega, .inr ha.size, ?_, ?_⟩, st, hst, rfl⟩
      · rintro (h | h | h)
        · exact ha.less (.inl h)
        · exact ha.less (.inr h)
        · omega
      · rintro (h | h | h)
        · exact .inl h
        · exact .inr (.inl (ha.short h))
        · omega
  · have heq : ts.tokens.length = ntokens := by omega
    rw [if_neg (show ¬ ts.ntokens < ntokens from hlt)]
    refine wp_lift (a := ()) (rassert_true (by
      show (ts.tokens.length == ntokens) = true
      simp; omega)) ?_
    refine wp_getStats (B.family hf) ?_
    intro st hst
    have better : ∀ ts', Fam ts' → ts'.tokens.length = ntokens → tot env ts' < tot env ts →
        Better env bo Fam hi ntokens ts ts' := by
      intro ts' h1 h2 h3
      exact ⟨h1, by omega, .inl ⟨h3, by omega⟩, fun _ => by omega, fun _ => .inr (.inr h2)⟩
    apply wp_bind'
    refine wp_mono _ ?_ (wp_tradeByte B hf heq hst)
    rintro r ⟨o, rfl, ho⟩
    cases o with
    | some st' =>
      refine ⟨_, _, rfl, ?_⟩
      intro st'' h
      cases h
      obtain ⟨ts', h1, h2, h3, full, h4, h5⟩ := ho st' rfl
      exact ⟨ts', better ts' h1 h2 h3, full, h4, h5⟩
    | none =>
      apply wp_bind'
      intro l hp hs
      have : tot env ts = st.cloneWithoutPairs.totalTokens := (fresh_tot hst).trans rfl
      show (removeLoop bo ts ntokens st.cloneWithoutPairs.totalTokens l rc).wp env S _
      rw [← this]
      refine wp_mono _ ?_ (wp_removeLoop B hf heq l rc (by
        intro s hs
        rw [← longStrings_eq]
        exact hp.mem_iff.1 hs))
      rintro r ⟨o, rc', rfl, ho'⟩
      refine ⟨o, rc', rfl, ?_⟩
      intro st'' h
      obtain ⟨ts', h1, h2, h3, full, h4, h5⟩ := ho' st'' h
      exact ⟨ts', better ts' h1 h2 h3, full, h4, h5⟩

/-- The sorted form of a better set is better. -/
theorem better_sorted (B : Behaves bo Fam lo hi ntokens) {ts ts' : TokenSet} {st : TokenStats}
    (h : Better env bo Fam hi ntokens ts ts') (hst : Fresh env ts' st) :
    Better env bo Fam hi ntokens ts st.tokenSet := by
  obtain ⟨s1, s2, s3, s4⟩ := fresh_sorted B h.fam hst
  exact ⟨(fresh_facts B h.fam hst).1, by rw [s3]; exact h.size, by rw [s2, s3]; exact h.progress,
    by rw [s2]; exact h.less, by rw [s3, s4]; exact h.keeps⟩

theorem wp_step (B : Behaves bo Fam lo hi ntokens) {ts : TokenSet} (hf : Fam ts)
    (hsize : ts.tokens.length ≤ ntokens) (rc : Removals) :
    (optimizationStep bo ts ntokens rc).wp env S (fun r => ∃ o rc', r = .ok (o, rc') ∧
      ∀ ts', o = some ts' → Better env bo Fam hi ntokens ts ts' ∧ ts'.sort = .ok ts') := by
  unfold optimizationStep
  refine wp_getStats (B.family hf) ?_
  intro st hst
  obtain ⟨f1, f2, f3, f4, f5, f6⟩ := fresh_facts B hf hst
  obtain ⟨s1, s2, s3, s4⟩ := fresh_sorted B hf hst
  obtain ⟨e1, e2, e3⟩ := size_of B hf
  have hb := B.bounds hf
  have htot := fresh_tot hst
  refine wp_lift (a := ntokens - (longTokens ts).length) (by rw [e2, subR_of (by omega)]) ?_
  have f5' : CountsFit st.cloneWithoutPairs := ⟨f5.tokens, f5.seqs⟩
  obtain ⟨ts1, h1, h2, h3, h4⟩ := B.opt (st := st.cloneWithoutPairs) (n := ntokens - (longTokens ts).length)
    f1 f5' (by omega) (by omega)
  have g := size_of B h2
  have hl := (sameSet_long f2).length_eq
  have hlen : ts1.tokens.length = min (ntokens - (longTokens ts).length) hi + (longTokens ts).length := by
    rw [← g.2.2, g.1, h3, h4]
    show min _ hi + (longTokens st.tokenSet).length = _
    omega
  refine wp_lift h1 ?_
  refine wp_getStats (B.family h2) ?_
  intro st1 hst1
  have htot1 := fresh_tot hst1
  by_cases hcmp : st1.cloneWithoutPairs.totalTokens < st.cloneWithoutPairs.totalTokens
  · rw [if_pos hcmp]
    refine ⟨_, _, rfl, ?_⟩
    intro ts' h
    cases h
    have hlt : tot env ts1 < tot env ts := by rw [htot, htot1]; exact hcmp
    show Better env bo Fam hi ntokens ts st1.tokenSet ∧ st1.tokenSet.sort = .ok st1.tokenSet
    refine ⟨better_sorted B ⟨h2, by omega, .inl ⟨hlt, by omega⟩, fun _ => by omega, ?_⟩ hst1,
      (fresh_sorted B h2 hst1).1⟩
    rintro (h | h | h)
    · exact .inl h
    · right
      rcases Nat.lt_or_ge ts.tokens.length ntokens with hl' | hl'
      · left; omega
      · right; omega
    · right; right; omega
  · rw [if_neg hcmp]
    apply wp_bind'
    refine wp_mono _ ?_ (wp_removeAddToken B hf hsize rc)
    rintro r ⟨o, rc', rfl, ho⟩
    cases o with
    | none => exact ⟨none, rc', rfl, by intro ts' h; cases h⟩
    | some st2 =>
      obtain ⟨ts', hbet, full, hfr, rfl⟩ := ho st2 rfl
      have hs := better_sorted B hbet hfr
      refine wp_lift (a := ()) (rassert_true ?_) ?_
      · have := hs.size
        show decide (full.tokenSet.tokens.length ≤ ntokens) = true
        simpa using this
      · refine ⟨_, _, rfl, ?_⟩
        intro ts'' h
        cases h
        exact ⟨hs, (fresh_sorted B hbet.fam hfr).1⟩

end Optimize
end Tokens
