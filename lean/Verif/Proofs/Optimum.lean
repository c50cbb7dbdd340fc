import Verif.Proofs.Stuck

/-! The set that the optimizer returns is stuck; what follows from that. -/

set_option linter.unusedSimpArgs false
set_option linter.unusedVariables false

namespace Tokens
open Spec TokenSet Batch OptimizeBytes

namespace Optimize

variable {env : Env} {S : TokenSet → Prop} {bo : BytesOptimizer} {Fam : TokenSet → Prop}
  {lo hi ntokens : Nat}

/-- The set returned is stuck. -/
theorem impl_stuck (B : Behaves bo Fam lo hi ntokens) (he : EnvOk env) {ts : TokenSet}
    {w w' : World} {st : TokenStats} (hl : LoopSet Fam ntokens ts) (hw : WorldOk env w)
    (h : Impl env bo ntokens ts w (.ok st) w') : Stuck env bo ntokens st.tokenSet := by
  obtain ⟨full, e, _, k2, k3, _, _, _, _, ts1, rc1, rc2, w1, w2, g1, g2, g3, g4⟩ := impl_ok B he hl hw h
  have e := Except.ok.inj e
  subst e
  obtain ⟨⟨o, rc', e, ho⟩, _, _⟩ := wp_sound he g4
    (wp_step_none (S := fun _ => False) B g2.fam g2.size rc1) g3
  simp only [Except.ok.injEq, Prod.mk.injEq] at e
  have hst := ho.1 e.1.symm
  exact stuck_sameSet B (sort_sameSet g1).1.symm g2.fam k3.fam hst

/-- From a stuck set the optimizer returns that set. -/
theorem impl_of_stuck (B : Behaves bo Fam lo hi ntokens) (he : EnvOk env) {ts : TokenSet}
    {w w' : World} {r : R TokenStats} (hl : LoopSet Fam ntokens ts) (hw : WorldOk env w)
    (hs : Stuck env bo ntokens ts) (h : Impl env bo ntokens ts w r w') :
    (∃ full, Fresh env ts full ∧ r = .ok full.cloneWithoutPairs) ∧ w'.saved = w.saved := by
  have quiet : ∀ {α : Type} {p : Prog α} {Q : R α → Prop} {v v' : World} {x : R α}, Run env p v x v' →
      p.wp env (fun _ => False) Q → WorldOk env v → Q x ∧ WorldOk env v' ∧ v'.saved = v.saved := by
    intro α p Q v v' x hr hwp hv
    obtain ⟨a, b, l, e, hl⟩ := wp_sound he hr hwp hv
    refine ⟨a, b, ?_⟩
    have : l = [] := by
      rw [List.eq_nil_iff_forall_not_mem]
      intro f hf
      obtain ⟨_, h, _⟩ := hl f hf
      exact h
    rw [e, this, List.append_nil]
  have first : ∀ r' w1, Run env (getStats ts) w r' w1 →
      (∃ st, r' = .ok st) ∧ WorldOk env w1 ∧ w1.saved = w.saved := by
    intro r' w1 h1
    exact quiet h1 (Q := fun r => ∃ st, r = .ok st) ⟨B.family hl.fam, fun st _ => ⟨_, rfl⟩⟩ hw
  have loop : ∀ w1 r2 w2, WorldOk env w1 → Loop env bo ntokens ts (fun _ => 0) w1 r2 w2 →
      r2 = .ok ts ∧ WorldOk env w2 ∧ w2.saved = w1.saved := by
    intro w1 r2 w2 hw1 h2
    have step := wp_step_none (S := fun _ => False) B hl.fam hl.size (env := env) (fun _ => 0)
    cases h2 with
    | stop hs' =>
      obtain ⟨_, h1, h2⟩ := quiet hs' step hw1
      exact ⟨rfl, h1, h2⟩
    | fail hs' => obtain ⟨⟨o, rc', e, _⟩, _⟩ := quiet hs' step hw1; cases e
    | again hs' _ _ =>
      obtain ⟨⟨o, rc', e, ho⟩, _⟩ := quiet hs' step hw1
      simp only [Except.ok.injEq, Prod.mk.injEq] at e
      rw [ho.2 hs] at e
      simp at e
    | saveFail hs' _ =>
      obtain ⟨⟨o, rc', e, ho⟩, _⟩ := quiet hs' step hw1
      simp only [Except.ok.injEq, Prod.mk.injEq] at e
      rw [ho.2 hs] at e
      simp at e
  cases h with
  | done h1 h2 h3 =>
    obtain ⟨_, a1, a2⟩ := first _ _ h1
    obtain ⟨b1, b2, b3⟩ := loop _ _ _ a1 h2
    rw [Except.ok.inj b1] at h3
    obtain ⟨ts3, hs3⟩ := (sort_ok_iff ts).2 (Tokens.Family.usable (B.family hl.fam)).inRange
    have hss := (sort_sameSet hs3).1
    have hF3 : Fam ts3 := B.keep hl.fam
      (usable_sameSet (Tokens.Family.usable (B.family hl.fam)) hss (sort_inRange hs3)) (shrinks_sameSet hss)
      hss.header (sameSet_short hss)
    have hwp : (finish ts).wp env (fun _ => False)
        (fun r => ∃ full, r = .ok full.cloneWithoutPairs ∧ Fresh env ts3 full) := by
      unfold finish
      refine wp_lift hs3 ?_
      exact ⟨B.family hF3, fun st hst => ⟨st, rfl, hst⟩⟩
    obtain ⟨⟨full, e, hf⟩, _, c⟩ := quiet h3 hwp b2
    exact ⟨⟨full, fresh_sameSet hss (B.family hF3) (B.family hl.fam) hf, e⟩, by rw [c, b3, a2]⟩
  | firstFail h1 => obtain ⟨⟨_, e⟩, _⟩ := first _ _ h1; cases e
  | loopFail h1 h2 =>
    obtain ⟨_, a1, _⟩ := first _ _ h1
    obtain ⟨e, _⟩ := loop _ _ _ a1 h2
    cases e

/-- A stuck set that is not of full size has all ext and byte tokens that the byte optimizer makes,
and no two tokens are adjacent in the data. -/
theorem stuck_small (B : Behaves bo Fam lo hi ntokens) {ts : TokenSet} (hf : Fam ts)
    (hs : Stuck env bo ntokens ts) (hlt : ts.tokens.length < ntokens) :
    shortCount ts = hi ∧ ∃ full, Fresh env ts full ∧ ∀ k, full.pairCounts.getD k 0 = 0 := by
  obtain ⟨st, b, t, h1, h2, h3, h4⟩ := hs.add hlt
  obtain ⟨f1, f2, f3, f4, f5, f6⟩ := fresh_facts B hf h1
  have hlen := f2.tokens.length_eq
  rcases addByte_ok B f1 f4 (by omega) with ⟨a1, a2⟩ | ⟨tb, db, sb, a1, _⟩
  · refine ⟨by rw [← sameSet_short f2]; exact a1, st, h1, ?_⟩
    rcases bpe_cases f6 f4 with ⟨c0, _⟩ | ⟨_, _, ts', _, _, _, _, _, _, _, _, c1⟩ | ⟨_, _, ts', _, _, _, _, _, _, _, _, c1⟩
    · exact c0
    · have := Except.ok.inj (h2.symm.trans a2); subst this
      have := Except.ok.inj (h3.symm.trans c1); subst this
      simp [choose] at h4
    · have := Except.ok.inj (h2.symm.trans a2); subst this
      have := Except.ok.inj (h3.symm.trans c1); subst this
      simp [choose] at h4
  · have := Except.ok.inj (h2.symm.trans a1); subst this
    cases t with
    | none => simp [choose] at h4
    | some t => obtain ⟨t, d⟩ := t; simp only [choose] at h4; split at h4 <;> simp at h4

/-- The number of threads does not matter. -/
theorem stuck_threads {env env' : Env} (h1 : env'.sampler = env.sampler)
    (h2 : env'.initialSize = env.initialSize) {ts : TokenSet} (h : Stuck env bo ntokens ts) :
    Stuck env' bo ntokens ts := by
  obtain ⟨a, b, c⟩ := env
  obtain ⟨a', b', c'⟩ := env'
  simp only at h1 h2
  subst h1 h2
  exact ⟨h.bytes, h.add, h.trade, h.exchange⟩

theorem pairOcc_adjacent {a b : Nat} : ∀ {ps : List Piece} {qs : List Piece},
    0 < pairOcc a b (ps ++ .tok a :: .tok b :: qs)
  | [], qs => by simp only [List.nil_append, pairOcc, and_self, if_true]; omega
  | [p], qs => by
    cases p with
    | tok x => simp only [List.cons_append, List.nil_append, pairOcc, and_self, if_true]; omega
    | seq j => simp only [List.cons_append, List.nil_append, pairOcc, and_self, if_true]; omega
  | p :: q :: ps, qs => by
    have ih := pairOcc_adjacent (a := a) (b := b) (ps := q :: ps) (qs := qs)
    cases p with
    | seq j => simpa [pairOcc] using ih
    | tok x =>
      cases q with
      | seq j => simpa [pairOcc] using ih
      | tok y =>
        simp only [List.cons_append, pairOcc] at ih ⊢
        omega

theorem sum_zero : ∀ {l : List Nat} {x : Nat}, x ∈ l → l.sum = 0 → x = 0
  | y :: l, x, hx, h => by
    rw [List.sum_cons] at h
    rcases List.mem_cons.1 hx with rfl | hx
    · omega
    · exact sum_zero hx (by omega)

theorem pairOcc_le {a b : Nat} {samples : List Bytes} {n : Option Nat} {ts : TokenSet} {st : TokenStats}
    (hseq : SeqsInRange ts) (h : tokenizeFileSync ts samples n = .ok st)
    (h0 : ∀ k, st.pairCounts.getD k 0 = 0) {x : Bytes} (hx : x ∈ samples) {ps : List Piece}
    (hps : LongestLast ts ps x) (ha : a < ts.tokens.length) (hb : b < ts.tokens.length) :
    pairOcc a b ps = 0 := by
  obtain ⟨tk, d, _, ht, hw, _, _, hc⟩ := sync_inv hseq h
  have e := hc (.pair (a * ts.tokens.length + b))
  change st.pairCounts.getD _ 0 = _ at e
  rw [h0] at e
  have hle : d x (.pair (a * ts.tokens.length + b)) = 0 := by
    unfold workSum at e
    exact sum_zero (List.mem_map.2 ⟨x, hx, rfl⟩) e.symm
  obtain ⟨qs, g1, g2⟩ := hw.seg x
  have := longestLast_unique ht hps g1
  subst this
  rw [g2] at hle
  have hlt : a * ts.tokens.length + b < ts.tokens.length * ts.tokens.length := by
    calc a * ts.tokens.length + b < a * ts.tokens.length + ts.tokens.length := by omega
      _ = (a + 1) * ts.tokens.length := by rw [Nat.add_mul, Nat.one_mul]
      _ ≤ _ := Nat.mul_le_mul_right _ ha
  have e1 : (a * ts.tokens.length + b) / ts.tokens.length = a := by
    rw [Nat.mul_comm, Nat.mul_add_div (by omega), Nat.div_eq_of_lt hb, Nat.add_zero]
  have e2 : (a * ts.tokens.length + b) % ts.tokens.length = b := by
    rw [Nat.mul_comm, Nat.mul_add_mod, Nat.mod_eq_of_lt hb]
  simpa [segCount, hlt, e1, e2] using hle

theorem tok_str {ts : TokenSet} {a : Nat} {s : Bytes} (h : (Piece.tok a).string ts = some s) :
    ts.tokens[a]? = some (.str s) := by
  simp only [Piece.string] at h
  split at h
  · rename_i e
    cases h
    exact e
  · cases h

theorem spells_tok {ts : TokenSet} {ps : List Piece} {x : Bytes} (h : Spells ts ps x) {a : Nat}
    (ha : Piece.tok a ∈ ps) : ∃ s, ts.tokens[a]? = some (.str s) := by
  induction h with
  | nil => simp at ha
  | @cons p s ps t hp _ ih =>
    rcases List.mem_cons.1 ha with e | e
    · subst e
      exact ⟨_, tok_str hp⟩
    · exact ih e

/-- No two tokens are next to each other in the segmentation of a sample. -/
theorem no_adjacent {samples : List Bytes} {n : Option Nat} {ts : TokenSet} {st : TokenStats}
    (hseq : SeqsInRange ts) (h : tokenizeFileSync ts samples n = .ok st)
    (h0 : ∀ k, st.pairCounts.getD k 0 = 0) {x : Bytes} (hx : x ∈ samples) {ps : List Piece}
    (hps : LongestLast ts ps x) (u v : List Piece) (a b : Nat) : ps ≠ u ++ .tok a :: .tok b :: v := by
  rintro rfl
  have hs := hps.optimal.1
  obtain ⟨s, hs1⟩ := spells_tok hs (a := a) (by simp)
  obtain ⟨s, hs2⟩ := spells_tok hs (a := b) (by simp)
  obtain ⟨ha, _⟩ := List.getElem?_eq_some_iff.1 hs1
  obtain ⟨hb, _⟩ := List.getElem?_eq_some_iff.1 hs2
  have h1 := pairOcc_le hseq h h0 hx hps ha hb
  have := pairOcc_adjacent (a := a) (b := b) (ps := u) (qs := v)
  omega

/-- With no sequences, every sample is then a token. -/
theorem one_token {samples : List Bytes} {n : Option Nat} {ts : TokenSet} {st : TokenStats}
    (hnone : ts.sequences = []) (h : tokenizeFileSync ts samples n = .ok st)
    (h0 : ∀ k, st.pairCounts.getD k 0 = 0) {x : Bytes} (hx : x ∈ samples) (hne : x ≠ []) :
    Token.str x ∈ ts.tokens := by
  have hseq : SeqsInRange ts := by intro q hq; rw [hnone] at hq; simp at hq
  obtain ⟨tk, d, _, ht, hw, _, _, _⟩ := sync_inv hseq h
  obtain ⟨ps, hps, _⟩ := hw.seg x
  have hs := hps.optimal.1
  have noSeq : ∀ {p : Piece} {s : Bytes}, p.string ts = some s → ∃ a, p = .tok a ∧ Token.str s ∈ ts.tokens := by
    intro p s hp
    cases p with
    | tok a =>
      refine ⟨a, rfl, ?_⟩
      exact List.mem_of_getElem? (tok_str hp)
    | seq j => simp [Piece.string, hnone] at hp
  have adj := no_adjacent hseq h h0 hx hps
  cases hs with
  | nil => exact absurd rfl hne
  | cons hp hrest =>
    obtain ⟨a, rfl, hm⟩ := noSeq hp
    cases hrest with
    | nil => rw [List.append_nil]; exact hm
    | cons hp' _ =>
      obtain ⟨b, rfl, _⟩ := noSeq hp'
      exact absurd rfl (adj [] _ a b)

end Optimize
end Tokens
