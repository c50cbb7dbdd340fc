import Verif.Proofs.Reach
import Mathlib.Data.List.Nodup

/-! When a step of the optimizer finds nothing: a condition on the set alone, whatever the order of the
trials and the numbering of the tokens. -/

set_option linter.unusedSimpArgs false
set_option linter.unusedVariables false

namespace Tokens
open Spec TokenSet Batch OptimizeBytes

namespace Optimize

variable {env : Env} {S : TokenSet → Prop} {bo : BytesOptimizer} {Fam : TokenSet → Prop}
  {lo hi ntokens : Nat}

/-- What `add_token` proposes. -/
def AddTok (env : Env) (bo : BytesOptimizer) (ts : TokenSet) (o : Option TokenSet) : Prop :=
  ∃ st b t, Fresh env ts st ∧ addByte bo st = .ok b ∧ addTokenBpe st = .ok t ∧ choose b t = o

theorem addTok_unique {ts : TokenSet} {x y : Option TokenSet} (hx : AddTok env bo ts x)
    (hy : AddTok env bo ts y) : x = y := by
  obtain ⟨s1, b1, t1, h1, h2, h3, rfl⟩ := hx
  obtain ⟨s2, b2, t2, g1, g2, g3, rfl⟩ := hy
  have := fresh_unique h1 g1
  subst this
  rw [Except.ok.inj (h2.symm.trans g2), Except.ok.inj (h3.symm.trans g3)]

/-- No single change that the optimizer tries helps. -/
structure Stuck (env : Env) (bo : BytesOptimizer) (ntokens : Nat) (ts : TokenSet) : Prop where
  bytes : ∀ st ts1 st1, Fresh env ts st →
    bo st.cloneWithoutPairs (ntokens - (longTokens ts).length) = .ok ts1 → Fresh env ts1 st1 →
    st.totalTokens ≤ st1.totalTokens
  add : ts.tokens.length < ntokens → AddTok env bo ts none
  trade : ts.tokens.length = ntokens → ts.minBytesExtTokens < shortCount ts →
    ∀ st ts1 st1 ts2 d st2, Fresh env ts st →
      bo st.cloneWithoutPairs (shortCount ts - 1) = .ok ts1 → Fresh env ts1 st1 →
      addTokenBpe st1 = .ok (some (ts2, d)) → Fresh env ts2 st2 → st.totalTokens ≤ st2.totalTokens
  exchange : ts.tokens.length = ntokens → ∀ s ∈ longTokens ts, ∀ idx ts1 ts2,
    ts.findToken s = some idx → ts.removeToken idx = .ok ts1 → AddTok env bo ts1 (some ts2) →
    tot env ts ≤ tot env ts2

theorem wp_addToken_det (B : Behaves bo Fam lo hi ntokens) {ts : TokenSet} (hf : Fam ts)
    (hlt : ts.tokens.length < ntokens) :
    (addToken bo ts).wp env S (fun r => ∃ o, r = .ok o ∧ AddTok env bo ts o) := by
  unfold addToken
  refine wp_getPairs (B.family hf) ?_
  intro st hst
  obtain ⟨f1, f2, f3, f4, f5, f6⟩ := fresh_facts B hf hst
  obtain ⟨s1, s2, s3, s4⟩ := fresh_sorted B hf hst
  have hb : ∃ b, addByte bo st = .ok b := by
    rcases addByte_ok B f1 f4 (by omega) with ⟨_, a2⟩ | ⟨tb, db, sb, a1, _⟩
    · exact ⟨_, a2⟩
    · exact ⟨_, a1⟩
  have ht : ∃ t, addTokenBpe st = .ok t := by
    rcases bpe_ok B f1 f4 with c1 | ⟨tc, dc, sc, c1, _⟩
    · exact ⟨_, c1⟩
    · exact ⟨_, c1⟩
  obtain ⟨b, hb⟩ := hb
  obtain ⟨t, ht⟩ := ht
  refine wp_lift hb ?_
  refine wp_lift ht ?_
  exact ⟨_, rfl, st, b, t, hst, hb, ht, rfl⟩

theorem wp_and {α : Type} (p : Prog α) : ∀ {P Q : R α → Prop}, p.wp env S P → p.wp env S Q →
    p.wp env S (fun r => P r ∧ Q r) := by
  induction p with
  | pure a => exact fun h1 h2 => ⟨h1, h2⟩
  | fail e => exact fun h1 h2 => ⟨h1, h2⟩
  | stats ts k ih => exact fun h1 h2 => ⟨h1.1, fun st hs => ih _ (h1.2 st hs) (h2.2 st hs)⟩
  | pairs ts k ih => exact fun h1 h2 => ⟨h1.1, fun st hs => ih _ (h1.2 st hs) (h2.2 st hs)⟩
  | sortUnstable key l k ih => exact fun h1 h2 l' a b => ih _ (h1 l' a b) (h2 l' a b)
  | clock k ih => exact fun h1 h2 b => ih _ (h1 b) (h2 b)
  | save ts k ih => exact fun h1 h2 => ⟨h1.1, h1.2.1, ih h1.2.2 h2.2.2⟩

theorem wp_removeLoop_none (B : Behaves bo Fam lo hi ntokens) {ts : TokenSet} (hf : Fam ts)
    (hsize : ts.tokens.length = ntokens) (l : List Bytes) :
    ∀ rc, (∀ s ∈ l, s ∈ longTokens ts) →
    (removeLoop bo ts ntokens (tot env ts) l rc).wp env S (fun r => ∃ o rc', r = .ok (o, rc') ∧
      (o = none ↔ ∀ s ∈ l, ∀ idx ts1 ts2, ts.findToken s = some idx → ts.removeToken idx = .ok ts1 →
        AddTok env bo ts1 (some ts2) → tot env ts ≤ tot env ts2)) := by
  induction l with
  | nil => intro rc _; exact ⟨none, rc, rfl, by simp⟩
  | cons s rest ih =>
    intro rc hl
    obtain ⟨idx, ts1, h1, h2, h3, h4, h5⟩ := remove_long B hf (hl s (by simp))
    have ih' := ih (rc.bump s) (fun x hx => hl x (by simp [hx]))
    show (removeLoop bo ts ntokens (tot env ts) (s :: rest) rc).wp env S _
    unfold removeLoop
    refine wp_lift (a := idx) (by rw [h1]; rfl) ?_
    refine wp_lift h2 ?_
    refine wp_lift (a := ntokens - 1) (subR_of (by omega)) ?_
    refine wp_lift (a := ()) (rassert_true (by
      show (ts1.tokens.length == ntokens - 1) = true
      simp; omega)) ?_
    apply wp_bind'
    refine wp_mono _ ?_ (wp_and _ (wp_addToken_det B h3 (by omega)) (wp_addToken B h3 (by omega)))
    rintro r ⟨⟨o, rfl, ho⟩, o', e, hadd⟩
    cases e
    have go : ∀ (P : Prop), P → (P ↔ ∀ idx ts1 ts2, ts.findToken s = some idx →
        ts.removeToken idx = .ok ts1 → AddTok env bo ts1 (some ts2) → tot env ts ≤ tot env ts2) →
        (removeLoop bo ts ntokens (tot env ts) rest (rc.bump s)).wp env S (fun r => ∃ o rc', r = .ok (o, rc') ∧
      (o = none ↔ ∀ x ∈ s :: rest, ∀ idx ts1 ts2, ts.findToken x = some idx → ts.removeToken idx = .ok ts1 →
        AddTok env bo ts1 (some ts2) → tot env ts ≤ tot env ts2)) := by
      intro P hP hiff
      refine wp_mono _ ?_ ih'
      rintro r ⟨o, rc', rfl, hr⟩
      refine ⟨o, rc', rfl, ?_⟩
      rw [hr]
      constructor
      · intro h x hx
        rcases List.mem_cons.1 hx with rfl | hx
        · exact hiff.1 hP
        · exact h x hx
      · exact fun h x hx => h x (List.mem_cons_of_mem _ hx)
    cases o with
    | none =>
      refine go True trivial ⟨fun _ i a b e1 e2 e3 => ?_, fun _ => trivial⟩
      have := Option.some.inj (e1.symm.trans h1); subst this
      have := Except.ok.inj (e2.symm.trans h2); subst this
      cases addTok_unique e3 ho
    | some ts2 =>
      have ha := hadd ts2 rfl
      refine wp_getStats (B.family ha.fam) ?_
      intro st2 hst2
      have htot := fresh_tot hst2
      by_cases hcmp : st2.cloneWithoutPairs.totalTokens < tot env ts
      · rw [if_pos hcmp]
        refine ⟨_, _, rfl, ?_⟩
        refine ⟨fun h => (by cases h), fun h => ?_⟩
        exfalso
        have := h s (by simp) idx ts1 ts2 h1 h2 ho
        rw [htot] at this
        have hcmp' : st2.totalTokens < tot env ts := hcmp
        omega
      · rw [if_neg hcmp]
        refine go True trivial ⟨fun _ i a b e1 e2 e3 => ?_, fun _ => trivial⟩
        have := Option.some.inj (e1.symm.trans h1); subst this
        have := Except.ok.inj (e2.symm.trans h2); subst this
        have := Option.some.inj (addTok_unique e3 ho); subst this
        have hcmp' : ¬ st2.totalTokens < tot env ts := hcmp
        omega

theorem wp_tradeByte_none (B : Behaves bo Fam lo hi ntokens) {ts : TokenSet} (hf : Fam ts)
    (hsize : ts.tokens.length = ntokens) {st : TokenStats} (hst : Fresh env ts st) :
    (tradeByte bo ts ntokens st.cloneWithoutPairs).wp env S (fun r => ∃ o, r = .ok o ∧
      (o = none ↔ (ts.minBytesExtTokens < shortCount ts →
        ∀ st ts1 st1 ts2 d st2, Fresh env ts st →
        bo st.cloneWithoutPairs (shortCount ts - 1) = .ok ts1 → Fresh env ts1 st1 →
        addTokenBpe st1 = .ok (some (ts2, d)) → Fresh env ts2 st2 → st.totalTokens ≤ st2.totalTokens))) := by
  obtain ⟨f1, f2, f3, f4, f5, f6⟩ := fresh_facts B hf hst
  obtain ⟨s1, s2, s3, s4⟩ := fresh_sorted B hf hst
  obtain ⟨e1, e2, e3⟩ := size_of B hf
  have hb := B.bounds hf
  have hm := B.min_lo hf
  unfold tradeByte
  refine wp_lift (a := shortCount ts) (by rw [e1, e2, subR_of (by omega)]; congr 1; omega) ?_
  by_cases hgt : shortCount ts > ts.minBytesExtTokens
  · rw [if_pos hgt]
    refine wp_lift (a := shortCount ts - 1) (subR_of (by omega)) ?_
    have f5' : CountsFit st.cloneWithoutPairs := ⟨f5.tokens, f5.seqs⟩
    obtain ⟨ts1, h1, h2, h3, h4⟩ := B.opt (st := st.cloneWithoutPairs) (n := shortCount ts - 1) f1 f5'
      (by omega) (by omega)
    have g := size_of B h2
    have hlen : ts1.tokens.length = ntokens - 1 := by
      rw [← g.2.2, g.1, h3, h4]
      have := (sameSet_long f2).length_eq
      show min (shortCount ts - 1) hi + (longTokens st.tokenSet).length = ntokens - 1
      omega
    refine wp_lift h1 ?_
    refine wp_lift (a := ntokens - 1) (subR_of (by omega)) ?_
    refine wp_lift (a := ()) (rassert_true (by
      show (ts1.tokens.length == ntokens - 1) = true
      simp; omega)) ?_
    refine wp_getPairs (B.family h2) ?_
    intro st1 hst1
    obtain ⟨k1, k2, k3, k4, k5, k6⟩ := fresh_facts B h2 hst1
    rcases bpe_ok B k1 k4 with c1 | ⟨tc, dc, sc, c1, c2, c3, c4, c5, c6, c7⟩
    · refine wp_lift c1 ?_
      refine ⟨none, rfl, ⟨fun _ _ x1 x2 x3 x4 x5 x6 y1 y2 y3 y4 y5 => ?_, fun _ => rfl⟩⟩
      have := fresh_unique y1 hst; subst this
      have := Except.ok.inj (y2.symm.trans h1); subst this
      have := fresh_unique y3 hst1; subst this
      have := Except.ok.inj (y4.symm.trans c1)
      cases this
    · refine wp_lift c1 ?_
      refine wp_getStats (B.family c2) ?_
      intro st2 hst2
      by_cases hcmp : st2.cloneWithoutPairs.totalTokens < st.cloneWithoutPairs.totalTokens
      · rw [if_pos hcmp]
        refine ⟨_, rfl, ⟨fun h => (by cases h), fun h => ?_⟩⟩
        exfalso
        have := h hgt st ts1 st1 tc dc st2 hst h1 hst1 c1 hst2
        have hcmp' : st2.totalTokens < st.totalTokens := hcmp
        omega
      · rw [if_neg hcmp]
        refine ⟨none, rfl, ⟨fun _ _ x1 x2 x3 x4 x5 x6 y1 y2 y3 y4 y5 => ?_, fun _ => rfl⟩⟩
        have := fresh_unique y1 hst; subst this
        have := Except.ok.inj (y2.symm.trans h1); subst this
        have := fresh_unique y3 hst1; subst this
        have := Option.some.inj (Except.ok.inj (y4.symm.trans c1))
        simp only [Prod.mk.injEq] at this
        obtain ⟨rfl, rfl⟩ := this
        have := fresh_unique y5 hst2; subst this
        have hcmp' : ¬ x6.totalTokens < x1.totalTokens := hcmp
        omega
  · rw [if_neg hgt]
    exact ⟨none, rfl, ⟨fun _ h => absurd h hgt, fun _ => rfl⟩⟩

/-- A step finds nothing if and only if the set is stuck. -/
theorem wp_step_none (B : Behaves bo Fam lo hi ntokens) {ts : TokenSet} (hf : Fam ts)
    (hsize : ts.tokens.length ≤ ntokens) (rc : Removals) :
    (optimizationStep bo ts ntokens rc).wp env S (fun r => ∃ o rc', r = .ok (o, rc') ∧
      (o = none ↔ Stuck env bo ntokens ts)) := by
  unfold optimizationStep
  refine wp_getStats (B.family hf) ?_
  intro st hst
  obtain ⟨f1, f2, f3, f4, f5, f6⟩ := fresh_facts B hf hst
  obtain ⟨s1, s2, s3, s4⟩ := fresh_sorted B hf hst
  obtain ⟨e1, e2, e3⟩ := size_of B hf
  have hb := B.bounds hf
  have htot := fresh_tot hst
  refine wp_lift (a := ntokens - (longTokens ts).length) (by rw [e2, subR_of (by omega)]) ?_
  have f5' : CountsFit st.cloneWithoutPairs := ⟨f5.tokens, f5.seqs⟩
  obtain ⟨ts1, h1, h2, h3, h4⟩ := B.opt (st := st.cloneWithoutPairs) (n := ntokens - (longTokens ts).length)
    f1 f5' (by omega) (by omega)
  refine wp_lift h1 ?_
  refine wp_getStats (B.family h2) ?_
  intro st1 hst1
  have htot1 := fresh_tot hst1
  by_cases hcmp : st1.cloneWithoutPairs.totalTokens < st.cloneWithoutPairs.totalTokens
  · rw [if_pos hcmp]
    refine ⟨_, _, rfl, ⟨fun h => (by cases h), fun h => ?_⟩⟩
    exfalso
    have := h.bytes st ts1 st1 hst h1 hst1
    have hcmp' : st1.totalTokens < st.totalTokens := hcmp
    omega
  · rw [if_neg hcmp]
    have hbytes : ∀ st ts1 st1, Fresh env ts st →
        bo st.cloneWithoutPairs (ntokens - (longTokens ts).length) = .ok ts1 → Fresh env ts1 st1 →
        st.totalTokens ≤ st1.totalTokens := by
      intro x1 x2 x3 y1 y2 y3
      have := fresh_unique y1 hst; subst this
      have := Except.ok.inj (y2.symm.trans h1); subst this
      have := fresh_unique y3 hst1; subst this
      have hcmp' : ¬ x3.totalTokens < x1.totalTokens := hcmp
      omega
    apply wp_bind'
    have inner : (removeAddToken bo ts ntokens rc).wp env S (fun r => ∃ o rc', r = .ok (o, rc') ∧
        (o = none ↔ Stuck env bo ntokens ts)) := by
      unfold removeAddToken
      by_cases hlt : ts.tokens.length < ntokens
      · rw [if_pos (show ts.ntokens < ntokens from hlt)]
        apply wp_bind'
        refine wp_mono _ ?_ (wp_and _ (wp_addToken_det B hf hlt) (wp_addToken B hf hlt))
        rintro r ⟨⟨o, rfl, ho⟩, o', e, hadd⟩
        cases e
        cases o with
        | none =>
          exact ⟨none, rc, rfl, ⟨fun _ => ⟨hbytes, fun _ => ho, fun h => by omega, fun h => by omega⟩,
            fun _ => rfl⟩⟩
        | some ts' =>
          have ha := hadd ts' rfl
          refine wp_getStats (B.family ha.fam) ?_
          intro st' hst'
          refine ⟨_, _, rfl, ⟨fun h => (by cases h), fun h => ?_⟩⟩
          cases addTok_unique ho (h.add hlt)
      · have heq : ts.tokens.length = ntokens := by omega
        rw [if_neg (show ¬ ts.ntokens < ntokens from hlt)]
        refine wp_lift (a := ()) (rassert_true (by
          show (ts.tokens.length == ntokens) = true
          simp; omega)) ?_
        refine wp_getStats (B.family hf) ?_
        intro st' hst'
        apply wp_bind'
        refine wp_mono _ ?_ (wp_tradeByte_none B hf heq hst')
        rintro r ⟨o, rfl, ho⟩
        cases o with
        | some st'' =>
          refine ⟨_, _, rfl, ⟨fun h => (by cases h), fun h => ?_⟩⟩
          cases ho.2 (h.trade heq)
        | none =>
          apply wp_bind'
          intro l hp hs
          have : tot env ts = st'.cloneWithoutPairs.totalTokens := (fresh_tot hst').trans rfl
          show (removeLoop bo ts ntokens st'.cloneWithoutPairs.totalTokens l rc).wp env S _
          rw [← this]
          have hmem : ∀ s, s ∈ l ↔ s ∈ longTokens ts := by
            intro s; rw [← longStrings_eq]; exact hp.mem_iff
          refine wp_mono _ ?_ (wp_removeLoop_none B hf heq l rc (fun s hs => (hmem s).1 hs))
          rintro r ⟨o, rc', rfl, ho'⟩
          refine ⟨o, rc', rfl, ?_⟩
          rw [ho']
          constructor
          · intro h
            exact ⟨hbytes, fun h => by omega, fun _ => ho.1 rfl, fun _ s hs => h s ((hmem s).2 hs)⟩
          · intro h s hs
            exact h.exchange heq s ((hmem s).1 hs)
    refine wp_mono _ ?_ (wp_and _ inner (wp_removeAddToken B hf hsize rc))
    rintro r ⟨⟨o, rc', rfl, ho⟩, o', rc'', e, hbet⟩
    cases e
    cases o with
    | none => exact ⟨none, rc', rfl, ⟨fun _ => ho.1 rfl, fun _ => rfl⟩⟩
    | some st2 =>
      obtain ⟨ts', hbt, full, hfr, rfl⟩ := hbet st2 rfl
      have hs := better_sorted B hbt hfr
      refine wp_lift (a := ()) (rassert_true ?_) ?_
      · have := hs.size
        show decide (full.tokenSet.tokens.length ≤ ntokens) = true
        simpa using this
      · exact ⟨_, _, rfl, ⟨fun h => (by cases h), fun h => by cases ho.2 h⟩⟩

/-! ### Renumbering -/

theorem seqs_nodup {ts : TokenSet} (h : Tokenizable ts) : (ts.sequences.map (·.string)).Nodup :=
  (List.nodup_append.1 h.nodup).2.1

theorem fresh_sameSet {a b : TokenSet} (hs : SameSet a b) (ha : Family a) (hb : Family b) {st : TokenStats}
    (h : Fresh env a st) : Fresh env b st := by
  obtain ⟨a', h1, h2⟩ := h
  obtain ⟨b', h3⟩ := (sort_ok_iff b).2 (Tokens.Family.usable hb).inRange
  have hu := Tokens.Family.usable ha
  have := sort_canonical hs hu.distinct (seqs_nodup hu.accepted) h1 h3
  subst this
  exact ⟨a', h3, h2⟩

theorem _root_.Tokens.Spec.SameSet.symm {a b : TokenSet} (h : SameSet a b) : SameSet b a :=
  ⟨⟨h.header.nExt.symm, h.header.tokenType.symm, h.header.processing.symm,
    h.header.splitParagraphs.symm⟩, h.tokens.symm, h.sequences.symm⟩

theorem addTok_sameSet {a b : TokenSet} (hs : SameSet a b) (ha : Family a) (hb : Family b)
    {o : Option TokenSet} (h : AddTok env bo a o) : AddTok env bo b o := by
  obtain ⟨st, x, t, h1, h2⟩ := h
  exact ⟨st, x, t, fresh_sameSet hs ha hb h1, h2⟩

theorem tot_same {a b : TokenSet} (hs : SameSet a b) (ha : Family a) (hb : Family b) :
    tot env a = tot env b := by
  obtain ⟨x, hx⟩ := fresh_exists env ha
  rw [fresh_tot hx, fresh_tot (fresh_sameSet hs ha hb hx)]

theorem stuck_sameSet (B : Behaves bo Fam lo hi ntokens) {a b : TokenSet} (hs : SameSet a b) (ha : Fam a)
    (hb : Fam b) (h : Stuck env bo ntokens a) : Stuck env bo ntokens b := by
  have hs' := hs.symm
  have hA := B.family ha
  have hB := B.family hb
  have hlen := hs.tokens.length_eq
  have hlong := sameSet_long hs
  have hshort := sameSet_short hs
  refine ⟨?_, ?_, ?_, ?_⟩
  · intro st ts1 st1 h1 h2 h3
    rw [← hlong.length_eq] at h2
    exact h.bytes st ts1 st1 (fresh_sameSet hs' hB hA h1) h2 h3
  · intro hlt
    exact addTok_sameSet hs hA hB (h.add (by omega))
  · intro he hm st ts1 st1 ts2 d st2 h1 h2 h3 h4 h5
    rw [← hshort] at h2 hm
    rw [show b.minBytesExtTokens = a.minBytesExtTokens by
      unfold minBytesExtTokens; rw [hs.header.tokenType]] at hm
    exact h.trade (by omega) hm st ts1 st1 ts2 d st2 (fresh_sameSet hs' hB hA h1) h2 h3 h4 h5
  · intro he s hmem idx ts1 ts2 h1 h2 h3
    have hmem' := hlong.mem_iff.2 hmem
    obtain ⟨i, t, g1, g2, g3, g4, g5⟩ := remove_long B ha hmem'
    obtain ⟨i', t', k1, k2, k3, k4, k5⟩ := remove_long B hb hmem
    have := Option.some.inj (k1.symm.trans h1); subst this
    have := Except.ok.inj (k2.symm.trans h2); subst this
    have hua := Tokens.Family.usable hA
    have hub := Tokens.Family.usable hB
    obtain ⟨p1, p2, p3, p4, p5⟩ := removeToken_spec hua.inRange g2
    obtain ⟨q1, q2, q3, q4, q5⟩ := removeToken_spec hub.inRange k2
    have er : ∀ {ts : TokenSet} {j : Nat}, ts.tokens.Nodup → ts.findToken s = some j →
        ts.tokens.eraseIdx j = ts.tokens.erase (.str s) := by
      intro ts j hn hj
      obtain ⟨z1, z2⟩ := findToken_some hj
      obtain ⟨hl, z1⟩ := List.getElem?_eq_some_iff.1 z1
      rw [← z1, List.Nodup.erase_getElem hn]
    have hsame : SameSet t t' := by
      refine ⟨⟨?_, ?_, ?_, ?_⟩, ?_, ?_⟩
      · rw [p1.nExt, q1.nExt, hs.header.nExt]
      · rw [p1.tokenType, q1.tokenType, hs.header.tokenType]
      · rw [p1.processing, q1.processing, hs.header.processing]
      · rw [p1.splitParagraphs, q1.splitParagraphs, hs.header.splitParagraphs]
      · rw [er hua.distinct g1] at p2
        rw [er hub.distinct h1] at q2
        exact p2.trans ((hs.tokens.erase _).trans q2.symm)
      · rw [p3, q3]; exact hs.sequences
    rw [← tot_same hs hA hB]
    exact h.exchange (by omega) s hmem' i t ts2 g1 g2
      (addTok_sameSet hsame.symm (B.family k3) (B.family g3) h3)

end Optimize
end Tokens
