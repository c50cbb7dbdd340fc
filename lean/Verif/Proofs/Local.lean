import Verif.Proofs.Optimum
import Verif.Spec.Local
import Verif.Spec.Pairs

/-! What follows from the fact that no single change helps: the long tokens. -/

set_option linter.unusedSimpArgs false
set_option linter.unusedVariables false

namespace Tokens
open Spec TokenSet Batch OptimizeBytes

/-! ### taking a token away does not change a tokenization that does not use it -/

/-- The same piece in two sets. -/
def SamePiece (a b : TokenSet) (p q : Piece) : Prop :=
  p.string a = q.string b ∧ (p.output a).length = (q.output b).length ∧
    ((∃ i, p = .tok i) ↔ ∃ i, q = .tok i)

/-- Every piece of `a` is a piece of `b`, except for the string `s`. -/
def Embeds (a b : TokenSet) (P : Bytes → Prop) : Prop :=
  ∀ p x, p.string a = some x → P x → ∃ q, SamePiece a b p q

theorem Embeds.list {a b : TokenSet} {P : Bytes → Prop} (h : Embeds a b P) {ps : List Piece} {t : Bytes}
    (hs : Spells a ps t) (hP : ∀ p ∈ ps, ∀ x, p.string a = some x → P x) :
    ∃ qs, List.Forall₂ (SamePiece a b) ps qs := by
  induction hs with
  | nil => exact ⟨[], .nil⟩
  | @cons p s ps t hp _ ih =>
    obtain ⟨q, hq⟩ := h p s hp (hP p (by simp) s hp)
    obtain ⟨qs, hqs⟩ := ih (fun p hp => hP p (by simp [hp]))
    exact ⟨q :: qs, .cons hq hqs⟩

theorem samePieces_spells {a b : TokenSet} {ps qs : List Piece} {t : Bytes}
    (h : List.Forall₂ (SamePiece a b) ps qs) (hs : Spells a ps t) : Spells b qs t := by
  induction h generalizing t with
  | nil => cases hs; exact .nil
  | cons hpq _ ih =>
    cases hs with
    | cons hp hs => exact .cons (by rw [← hpq.1]; exact hp) (ih hs)

theorem samePieces_length {a b : TokenSet} {ps qs : List Piece}
    (h : List.Forall₂ (SamePiece a b) ps qs) : (output a ps).length = (output b qs).length := by
  induction h with
  | nil => rfl
  | cons hpq _ ih =>
    simp only [output, List.flatMap_cons, List.length_append] at ih ⊢
    rw [hpq.2.1, ih]

theorem samePieces_append {a b : TokenSet} {ps qs : List Piece} {p q : Piece}
    (h : List.Forall₂ (SamePiece a b) ps qs) (h1 : SamePiece a b p q) :
    List.Forall₂ (SamePiece a b) (ps ++ [p]) (qs ++ [q]) := by
  induction h with
  | nil => exact .cons h1 .nil
  | cons hpq _ ih => exact .cons hpq ih

theorem spells_snoc_string {a : TokenSet} : ∀ {qs : List Piece} {q : Piece} {t : Bytes},
    Spells a (qs ++ [q]) t → ∃ u x, q.string a = some x ∧ Spells a qs u ∧ t = u ++ x
  | [], q, t, h => by
    cases h with
    | cons hp hs => cases hs; exact ⟨[], _, hp, .nil, by simp⟩
  | p :: qs, q, t, h => by
    cases h with
    | cons hp hs =>
      obtain ⟨u, x, h1, h2, rfl⟩ := spells_snoc_string hs
      exact ⟨_, x, h1, .cons hp h2, by simp⟩

/-- The tokenizer cuts in the same way with the smaller set, if it does not use the missing pieces. -/
theorem longestLast_embed {a b : TokenSet} {P : Bytes → Prop} (hab : Embeds a b P)
    (hba : Embeds b a (fun _ => True)) {ps : List Piece} {t : Bytes} (h : LongestLast a ps t)
    (hP : ∀ p ∈ ps, ∀ x, p.string a = some x → P x) :
    ∃ qs, LongestLast b qs t ∧ List.Forall₂ (SamePiece a b) ps qs := by
  induction h with
  | nil => exact ⟨[], .nil, .nil⟩
  | @snoc ps t p s hl hp hopt hmax ih =>
    obtain ⟨qs, h1, h2⟩ := ih (fun p hp => hP p (by simp [hp]))
    obtain ⟨q, hq⟩ := hab p s hp (hP p (by simp) s hp)
    have h3 := samePieces_append h2 hq
    have lift : ∀ rs, Spells b rs (t ++ s) → ∃ rs', Spells a rs' (t ++ s) ∧
        List.Forall₂ (SamePiece b a) rs rs' := by
      intro rs hrs
      obtain ⟨rs', h⟩ := hba.list hrs (fun _ _ _ _ => trivial)
      exact ⟨rs', samePieces_spells h hrs, h⟩
    have hopt' : Optimal b (t ++ s) (qs ++ [q]) := by
      refine ⟨samePieces_spells h3 hopt.1, fun rs hrs => ?_⟩
      obtain ⟨rs', g1, g2⟩ := lift rs hrs
      rw [← samePieces_length h3, samePieces_length g2]
      exact hopt.2 rs' g1
    refine ⟨qs ++ [q], .snoc h1 (by rw [← hq.1]; exact hp) hopt' ?_, h3⟩
    intro rs r y hr hro
    obtain ⟨u, y', e1, hu, e2⟩ := spells_snoc_string hro.1
    have : y' = y := Option.some.inj (e1.symm.trans hr)
    subst this
    obtain ⟨rs', g⟩ := hba.list hu (fun _ _ _ _ => trivial)
    obtain ⟨r', g'⟩ := hba r y' hr trivial
    have g3 := samePieces_append g g'
    refine hmax rs' r' y' (by rw [← g'.1]; exact hr) ⟨samePieces_spells g3 hro.1, fun ws hws => ?_⟩
    rw [← samePieces_length g3]
    refine Nat.le_trans (hro.2 _ hopt'.1) ?_
    rw [← samePieces_length h3]
    exact hopt.2 ws hws

theorem samePiece_seq {a b : TokenSet} (h : ∀ e ∈ meaning a, e ∈ meaning b) {j : Nat} {x : Bytes}
    (hp : (Piece.seq j).string a = some x) : ∃ q, SamePiece a b (.seq j) q := by
  have hp0 := hp
  rw [Piece.string_seq] at hp
  obtain ⟨q, hq, rfl⟩ := hp
  have hm : (q.string, listed a q) ∈ meaning a := List.mem_map.2 ⟨q, List.mem_of_getElem? hq, rfl⟩
  obtain ⟨q', hq', e⟩ := List.mem_map.1 (h _ hm)
  simp only [Prod.mk.injEq] at e
  obtain ⟨i, hi⟩ := List.mem_iff_getElem?.1 hq'
  refine ⟨.seq i, ?_, ?_, by simp⟩
  · rw [hp0]; exact (Piece.string_seq.2 ⟨q', hi, e.1⟩).symm
  · have := congrArg List.length e.2
    simp [listed] at this
    simp [Piece.output, hi, hq, this]

theorem samePiece_tok {a b : TokenSet} {i : Nat} {x : Bytes} (hp : (Piece.tok i).string a = some x)
    (hm : Token.str x ∈ b.tokens) : ∃ q, SamePiece a b (.tok i) q := by
  obtain ⟨j, hj⟩ := List.mem_iff_getElem?.1 hm
  exact ⟨.tok j, by rw [hp]; exact (Piece.string_tok.2 hj).symm, by simp [Piece.output], by simp⟩

theorem without_embeds {ts ts1 : TokenSet} {s : Bytes} (h : Without ts s ts1) :
    Embeds ts ts1 (· ≠ s) ∧ Embeds ts1 ts (fun _ => True) := by
  constructor
  · intro p x hp hx
    cases p with
    | tok i =>
      refine samePiece_tok hp (h.tokens.mem_iff.2 ?_)
      rw [Piece.string_tok] at hp
      exact (List.mem_erase_of_ne (by simpa using hx)).2 (List.mem_of_getElem? hp)
    | seq j => exact samePiece_seq (fun e he => h.sequences.mem_iff.2 he) hp
  · intro p x hp _
    cases p with
    | tok i =>
      refine samePiece_tok hp ?_
      rw [Piece.string_tok] at hp
      exact List.mem_of_mem_erase (h.tokens.mem_iff.1 (List.mem_of_getElem? hp))
    | seq j => exact samePiece_seq (fun e he => h.sequences.mem_iff.1 he) hp

namespace Optimize

variable {env : Env} {bo : BytesOptimizer} {Fam : TokenSet → Prop} {lo hi ntokens : Nat}

/-- The set without a token is what the optimizer makes when it removes it. -/
theorem without_removed (B : Behaves bo Fam lo hi ntokens) {ts ts1 : TokenSet} {s : Bytes} (hf : Fam ts)
    (hs : s ∈ longTokens ts) (hw : Without ts s ts1) (hr : SeqsInRange ts1) :
    ∃ idx ts1', ts.findToken s = some idx ∧ ts.removeToken idx = .ok ts1' ∧ Fam ts1' ∧ SameSet ts1 ts1' ∧
      Fam ts1 ∧ ts1.tokens.length + 1 = ts.tokens.length := by
  obtain ⟨idx, ts1', h1, h2, h3, h4, h5⟩ := remove_long B hf hs
  have hu := Tokens.Family.usable (B.family hf)
  obtain ⟨hh, hp, hm, hr', _⟩ := removeToken_spec hu.inRange h2
  have hget := (findToken_some h1).1
  obtain ⟨hlt, hget'⟩ := List.getElem?_eq_some_iff.1 hget
  have he : ts.tokens.erase (.str s) = ts.tokens.eraseIdx idx := by
    rw [← hget']
    exact hu.distinct.erase_getElem idx hlt
  have hss : SameSet ts1 ts1' := by
    refine ⟨⟨?_, ?_, ?_, ?_⟩, ?_, ?_⟩
    · rw [hw.header.nExt, hh.nExt]
    · rw [hw.header.tokenType, hh.tokenType]
    · rw [hw.header.processing, hh.processing]
    · rw [hw.header.splitParagraphs, hh.splitParagraphs]
    · rw [← he] at hp; exact hw.tokens.trans hp.symm
    · rw [hm]; exact hw.sequences
  have hF1 := Tokens.Family.usable (B.family h3)
  refine ⟨idx, ts1', h1, h2, h3, hss, B.keep h3 (usable_sameSet hF1 hss hr) (shrinks_sameSet hss) hss.header
    (sameSet_short hss), ?_⟩
  rw [hss.tokens.length_eq]; exact h4

/-- What `add_token` has to offer for the set without `s` does not make up for `s`. -/
theorem stuck_offer (B : Behaves bo Fam lo hi ntokens) {ts ts1 : TokenSet} {s : Bytes} (hf : Fam ts)
    (hst : Stuck env bo ntokens ts) (hlen : ts.tokens.length = ntokens)
    (hs : s ∈ longTokens ts) (hw : Without ts s ts1) {st1 : TokenStats} (h1 : Fresh env ts1 st1) :
    Fam st1.tokenSet ∧ tokenizeFileSync st1.tokenSet env.sampler.samples env.initialSize = .ok st1 ∧
    SeqsInRange st1.tokenSet ∧ st1.tokenSet.tokens.length + 1 = ntokens ∧
    ∀ o, AddTok env bo ts1 (some o) → tot env ts ≤ tot env o := by
  have hr : SeqsInRange ts1 := by
    obtain ⟨ts', h, _⟩ := h1
    exact (sort_ok_iff ts1).1 ⟨ts', h⟩
  obtain ⟨idx, ts1', g1, g2, g3, g4, g5, g6⟩ := without_removed B hf hs hw hr
  obtain ⟨f1, f2, f3, f4, f5, f6⟩ := fresh_facts B g5 h1
  refine ⟨f1, f4, f6, by rw [f2.tokens.length_eq]; omega, ?_⟩
  intro o ho
  exact hst.exchange hlen s hs idx ts1' o g1 g2 (addTok_sameSet g4 (B.family g5) (B.family g3) ho)

/-- The bound for the pairs. -/
theorem stuck_pair (B : Behaves bo Fam lo hi ntokens) {ts ts1 : TokenSet} {s : Bytes} (hf : Fam ts)
    (hst : Stuck env bo ntokens ts) (hlen : ts.tokens.length = ntokens)
    (hs : s ∈ longTokens ts) (hw : Without ts s ts1) {st1 : TokenStats} (h1 : Fresh env ts1 st1)
    {t : TokenSet} {d : Int} (hb : addTokenBpe st1 = .ok (some (t, d)))
    (hd : ∃ st', tokenizeFileSync t env.sampler.samples env.initialSize = .ok st' ∧
      2 * (st'.totalTokens : Int) + d ≤ 2 * st1.totalTokens ∧ st'.totalTokens < st1.totalTokens)
    (hd0 : 0 ≤ d) :
    2 * (tot env ts : Int) + d ≤ 2 * st1.totalTokens ∧ tot env ts < st1.totalTokens := by
  obtain ⟨f1, f2, f3, f4, f5⟩ := stuck_offer B hf hst hlen hs hw h1
  have ht : Fam t := by
    rcases bpe_ok B f1 f2 with c | ⟨t', d', _, c, h, _⟩
    · rw [hb] at c; cases c
    · have := Except.ok.inj (hb.symm.trans c)
      simp only [Option.some.injEq, Prod.mk.injEq] at this
      rw [this.1]; exact h
  obtain ⟨st', d1, d2, d3⟩ := hd
  rcases addByte_ok B f1 f2 (by omega) with ⟨_, a2⟩ | ⟨tb, db, sb, a1, a2, _, _, _, _, a5, a6⟩
  · have := f5 t ⟨st1, none, some (t, d), h1, a2, hb, rfl⟩
    rw [tot_sync (B.family ht) d1] at this
    omega
  · by_cases hc : db > d
    · have := f5 tb ⟨st1, some (tb, db), some (t, d), h1, a1, hb, by simp [choose, hc]⟩
      rw [tot_sync (B.family a2) a5] at this
      omega
    · have := f5 t ⟨st1, some (tb, db), some (t, d), h1, a1, hb, by simp [choose, hc]⟩
      rw [tot_sync (B.family ht) d1] at this
      omega

end Optimize
end Tokens
