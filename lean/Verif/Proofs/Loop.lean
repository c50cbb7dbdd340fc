import Verif.Proofs.Step

/-! The loop of the optimizer, and the three byte optimizers. -/

set_option linter.unusedSimpArgs false
set_option linter.unusedVariables false

namespace Tokens
open Spec TokenSet Batch OptimizeBytes

namespace Optimize

variable {env : Env} {bo : BytesOptimizer} {Fam : TokenSet → Prop} {lo hi ntokens : Nat}

/-- A set the loop may have and save. -/
structure LoopSet (Fam : TokenSet → Prop) (ntokens : Nat) (ts : TokenSet) : Prop where
  fam : Fam ts
  size : ts.tokens.length ≤ ntokens

theorem step_run (B : Behaves bo Fam lo hi ntokens) (he : EnvOk env) {ts : TokenSet} {rc : Removals}
    {w w' : World} {r} (hl : LoopSet Fam ntokens ts) (hw : WorldOk env w)
    (hr : Run env (optimizationStep bo ts ntokens rc) w r w') :
    WorldOk env w' ∧ Wrote (fun _ => False) w w' ∧ ∃ o rc', r = .ok (o, rc') ∧
      ∀ ts', o = some ts' → Better env bo Fam hi ntokens ts ts' ∧ ts'.sort = .ok ts' := by
  obtain ⟨a, b, c⟩ := wp_sound he hr (wp_step (S := fun _ => False) B hl.fam hl.size rc) hw
  exact ⟨b, c, a⟩

theorem Wrote.mono {S S' : TokenSet → Prop} (h : ∀ ts, S ts → S' ts) {w w' : World} (hw : Wrote S w w') :
    Wrote S' w w' := by
  obtain ⟨l, h1, h2⟩ := hw
  refine ⟨l, h1, ?_⟩
  intro f hf
  obtain ⟨ts, h3, h4⟩ := h2 f hf
  exact ⟨ts, h _ h3, h4⟩

theorem wp_maybeSave {S : TokenSet → Prop} {ts : TokenSet} (h1 : S ts) (h2 : SeqsInRange ts) :
    (maybeSave ts).wp env S (fun r => r = .ok ()) := by
  unfold maybeSave
  apply wp_bind'
  intro b
  cases b with
  | true => exact ⟨h1, h2, rfl⟩
  | false => exact rfl

/-- The sets that may be saved. -/
def Savable (Fam : TokenSet → Prop) (ntokens : Nat) (ts : TokenSet) : Prop :=
  LoopSet Fam ntokens ts ∧ ts.sort = .ok ts

theorem save_run (B : Behaves bo Fam lo hi ntokens) (he : EnvOk env) {ts : TokenSet}
    {w w' : World} {r} (hl : Savable Fam ntokens ts) (hw : WorldOk env w)
    (hr : Run env (maybeSave ts) w r w') :
    WorldOk env w' ∧ Wrote (Savable Fam ntokens) w w' ∧ r = .ok () := by
  obtain ⟨a, b, c⟩ := wp_sound he hr (wp_maybeSave (S := Savable Fam ntokens) hl
    (Tokens.Family.usable (B.family hl.1.fam)).inRange) hw
  exact ⟨b, c, a⟩

/-- Harmless growth, see `Better`. -/
def Safe (bo : BytesOptimizer) (Fam : TokenSet → Prop) (hi ntokens : Nat) (ts : TokenSet) : Prop :=
  Monotone bo Fam ∨ shortCount ts = hi ∨ ts.tokens.length = ntokens

theorem loop_ok (B : Behaves bo Fam lo hi ntokens) (he : EnvOk env) {ts : TokenSet} {rc : Removals}
    {w w' : World} {r : R TokenSet} (h : Loop env bo ntokens ts rc w r w') :
    LoopSet Fam ntokens ts → WorldOk env w →
    ∃ ts', r = .ok ts' ∧ LoopSet Fam ntokens ts' ∧ ts.tokens.length ≤ ts'.tokens.length ∧
      (Safe bo Fam hi ntokens ts → tot env ts' ≤ tot env ts) ∧ WorldOk env w' ∧
      Wrote (Savable Fam ntokens) w w' ∧
      ∃ rc1 rc2 w1 w2, Run env (optimizationStep bo ts' ntokens rc1) w1 (.ok (none, rc2)) w2 ∧
        WorldOk env w1 := by
  induction h with
  | stop hs =>
    intro hl hw
    obtain ⟨h1, h2, _⟩ := step_run B he hl hw hs
    exact ⟨_, rfl, hl, Nat.le_refl _, fun _ => Nat.le_refl _, h1, h2.mono (fun _ h => h.elim),
      _, _, _, _, hs, hw⟩
  | fail hs =>
    intro hl hw
    obtain ⟨_, _, o, rc', h, _⟩ := step_run B he hl hw hs
    cases h
  | again hs hsave _ ih =>
    intro hl hw
    obtain ⟨h1, h2, o, rc', h3, h4⟩ := step_run B he hl hw hs
    cases h3
    obtain ⟨hb, hsort⟩ := h4 _ rfl
    have hl' : LoopSet Fam ntokens _ := ⟨hb.fam, hb.size⟩
    obtain ⟨g1, g2, _⟩ := save_run B he ⟨hl', hsort⟩ h1 hsave
    obtain ⟨ts', e, k1, k2, k3, k4, k5, k6⟩ := ih hl' g1
    refine ⟨ts', e, k1, ?_, ?_, k4, (h2.mono (fun _ h => h.elim)).trans (g2.trans k5), k6⟩
    · rcases hb.progress with ⟨_, h⟩ | h <;> omega
    · intro hsafe
      exact Nat.le_trans (k3 (hb.keeps hsafe)) (hb.less hsafe)
  | saveFail hs hsave =>
    intro hl hw
    obtain ⟨h1, h2, o, rc', h3, h4⟩ := step_run B he hl hw hs
    cases h3
    obtain ⟨hb, hsort⟩ := h4 _ rfl
    obtain ⟨_, _, h⟩ := save_run B he ⟨⟨hb.fam, hb.size⟩, hsort⟩ h1 hsave
    cases h

/-- A better set is smaller in this order. -/
theorem better_measure {ts ts' : TokenSet} (h : Better env bo Fam hi ntokens ts ts') :
    Prod.Lex (· < ·) (· < ·) (ntokens - ts'.tokens.length, tot env ts') (ntokens - ts.tokens.length, tot env ts) := by
  have := h.size
  rcases h.progress with ⟨h1, h2⟩ | h1
  · rcases Nat.lt_or_ge ts.tokens.length ts'.tokens.length with h3 | h3
    · exact .left _ _ (by omega)
    · have e : ts'.tokens.length = ts.tokens.length := by omega
      rw [e]
      exact .right _ h1
  · exact .left _ _ (by omega)

theorem lex_wf : WellFounded (Prod.Lex (fun a b : Nat => a < b) (fun a b : Nat => a < b)) :=
  (Prod.lex Nat.lt_wfRel Nat.lt_wfRel).wf

/-- The loop has an outcome. -/
theorem loop_total (B : Behaves bo Fam lo hi ntokens) (he : EnvOk env) (m : Nat × Nat) :
    ∀ (ts : TokenSet) (rc : Removals) (w : World), (ntokens - ts.tokens.length, tot env ts) = m →
      LoopSet Fam ntokens ts → WorldOk env w → ∃ r w', Loop env bo ntokens ts rc w r w' := by
  induction m using lex_wf.induction with
  | _ m ih =>
    intro ts rc w e hl hw
    obtain ⟨r, w1, hrun⟩ := wp_total he _ (wp_step (env := env) (S := fun _ => False) B hl.fam hl.size rc) hw
    obtain ⟨h1, h2, o, rc', h3, h4⟩ := step_run B he hl hw hrun
    subst h3
    cases o with
    | none => exact ⟨_, _, .stop hrun⟩
    | some ts' =>
      obtain ⟨hb, hsort⟩ := h4 ts' rfl
      have hl' : LoopSet Fam ntokens ts' := ⟨hb.fam, hb.size⟩
      obtain ⟨r2, w2, hrun2⟩ := wp_total he _ (wp_maybeSave (env := env) (S := Savable Fam ntokens)
        ⟨hl', hsort⟩ (Tokens.Family.usable (B.family hl'.fam)).inRange) h1
      obtain ⟨g1, g2, g3⟩ := save_run B he ⟨hl', hsort⟩ h1 hrun2
      subst g3
      have := better_measure hb
      rw [e] at this
      obtain ⟨r3, w3, h5⟩ := ih _ this ts' rc' w2 rfl hl' g1
      exact ⟨r3, w3, .again hrun hrun2 h5⟩

theorem round_ok (B : Behaves bo Fam lo hi ntokens) (he : EnvOk env)
    {a b : TokenSet × Removals × World} (hl : LoopSet Fam ntokens a.1) (hw : WorldOk env a.2.2)
    (hr : Round env bo ntokens a b) : LoopSet Fam ntokens b.1 ∧ WorldOk env b.2.2 ∧
      Prod.Lex (fun a b : Nat => a < b) (fun a b : Nat => a < b)
        (ntokens - b.1.tokens.length, tot env b.1) (ntokens - a.1.tokens.length, tot env a.1) := by
  obtain ⟨w, h1, h2⟩ := hr
  obtain ⟨g1, g2, o, rc', g3, g4⟩ := step_run B he hl hw h1
  cases g3
  obtain ⟨hb, hsort⟩ := g4 _ rfl
  have hl' : LoopSet Fam ntokens b.1 := ⟨hb.fam, hb.size⟩
  exact ⟨hl', (save_run B he ⟨hl', hsort⟩ g1 h2).1, better_measure hb⟩

theorem no_infinite_rounds (B : Behaves bo Fam lo hi ntokens) (he : EnvOk env)
    (f : Nat → TokenSet × Removals × World) (hl : LoopSet Fam ntokens (f 0).1)
    (hw : WorldOk env (f 0).2.2) : ¬ ∀ i, Round env bo ntokens (f i) (f (i + 1)) := by
  intro h
  have inv : ∀ i, LoopSet Fam ntokens (f i).1 ∧ WorldOk env (f i).2.2 := by
    intro i
    induction i with
    | zero => exact ⟨hl, hw⟩
    | succ i ih => exact ⟨(round_ok B he ih.1 ih.2 (h i)).1, (round_ok B he ih.1 ih.2 (h i)).2.1⟩
  have key : ∀ m : Nat × Nat, ∀ i, (ntokens - (f i).1.tokens.length, tot env (f i).1) ≠ m := by
    intro m
    induction m using lex_wf.induction with
    | _ m ih =>
      intro i e
      have := (round_ok B he (inv i).1 (inv i).2 (h i)).2.2
      rw [e] at this
      exact ih _ this (i + 1) rfl
  exact key _ 0 rfl

/-- What `optimize_tokenset_impl` does. -/
def ImplGoal (env : Env) (bo : BytesOptimizer) (Fam : TokenSet → Prop) (hi ntokens : Nat)
    (ts : TokenSet) (w : World) (r : R TokenStats) (w' : World) : Prop :=
    ∃ full, r = .ok full.cloneWithoutPairs ∧ Fresh env full.tokenSet full ∧
      full.tokenSet.sort = .ok full.tokenSet ∧ LoopSet Fam ntokens full.tokenSet ∧
      ts.tokens.length ≤ full.tokenSet.tokens.length ∧
      (Safe bo Fam hi ntokens ts → full.totalTokens ≤ tot env ts) ∧ WorldOk env w' ∧
      Wrote (Savable Fam ntokens) w w' ∧
      ∃ ts1 rc1 rc2 w1 w2, ts1.sort = .ok full.tokenSet ∧ LoopSet Fam ntokens ts1 ∧ WorldOk env w1 ∧
        Run env (optimizationStep bo ts1 ntokens rc1) w1 (.ok (none, rc2)) w2

/-- `optimize_tokenset_impl`. -/
theorem impl_ok (B : Behaves bo Fam lo hi ntokens) (he : EnvOk env) {ts : TokenSet}
    {w w' : World} {r : R TokenStats} (hl : LoopSet Fam ntokens ts) (hw : WorldOk env w)
    (h : Impl env bo ntokens ts w r w') :
    ImplGoal env bo Fam hi ntokens ts w r w' := by
  have first : ∀ r' w1, Run env (getStats ts) w r' w1 →
      WorldOk env w1 ∧ Wrote (Savable Fam ntokens) w w1 ∧ ∃ st, r' = .ok st := by
    intro r' w1 h1
    have hwp : (getStats ts).wp env (Savable Fam ntokens) (fun r => ∃ st, r = .ok st) :=
      ⟨B.family hl.fam, fun st _ => ⟨_, rfl⟩⟩
    obtain ⟨a, b, c⟩ := wp_sound he h1 hwp hw
    exact ⟨b, c, a⟩
  have key : ∀ st w1 ts' w2, Run env (getStats ts) w (.ok st) w1 →
      Loop env bo ntokens ts (fun _ => 0) w1 (.ok ts') w2 → Run env (finish ts') w2 r w' →
      ImplGoal env bo Fam hi ntokens ts w r w' := by
    intro st w1 ts' w2 h1 h2 h3
    obtain ⟨a1, a2, _, _⟩ := first _ _ h1
    obtain ⟨ts'', e, b1, b2, b3, b4, b5, rc1, rc2, v1, v2, b6, b7⟩ := loop_ok B he h2 hl a1
    have e' := Except.ok.inj e
    clear e
    subst e'
    obtain ⟨ts3, hs⟩ := (sort_ok_iff ts').2 (Tokens.Family.usable (B.family b1.fam)).inRange
    have hss := (sort_sameSet hs).1
    have hF3 : Fam ts3 := B.keep b1.fam
      (usable_sameSet (Tokens.Family.usable (B.family b1.fam)) hss (sort_inRange hs)) (shrinks_sameSet hss)
      hss.header (sameSet_short hss)
    have hwp : (finish ts').wp env (Savable Fam ntokens)
        (fun r => ∃ full, r = .ok full.cloneWithoutPairs ∧ Fresh env ts3 full) := by
      unfold finish
      refine wp_lift hs ?_
      exact ⟨B.family hF3, fun st hst => ⟨st, rfl, hst⟩⟩
    obtain ⟨⟨full, k1, k2⟩, k3, k4⟩ := wp_sound he h3 hwp b4
    have hset : full.tokenSet = ts3 := by
      have := (fresh_facts B hF3 k2).2.2.1
      rw [sort_idem hs] at this
      exact (Except.ok.inj this).symm
    have htot : full.totalTokens = tot env ts' := by
      obtain ⟨x, hx⟩ := fresh_exists env (B.family b1.fam)
      have : Fresh env ts3 x := by
        obtain ⟨t, g1, g2⟩ := hx
        have := Except.ok.inj (hs.symm.trans g1)
        subst this
        exact ⟨ts3, sort_idem hs, g2⟩
      rw [fresh_unique k2 this, fresh_tot hx]
    refine ⟨full, k1, by rw [hset]; exact k2, by rw [hset]; exact sort_idem hs,
      ⟨by rw [hset]; exact hF3, ?_⟩, ?_, ?_, k3, a2.trans (b5.trans k4),
      ts', rc1, rc2, v1, v2, by rw [hset]; exact hs, b1, b7, b6⟩
    · rw [hset, hss.tokens.length_eq]; exact b1.size
    · rw [hset, hss.tokens.length_eq]; exact b2
    · intro hsafe; rw [htot]; exact b3 hsafe
  cases h with
  | done h1 h2 h3 => exact key _ _ _ _ h1 h2 h3
  | firstFail h1 =>
    obtain ⟨_, _, st, h⟩ := first _ _ h1
    cases h
  | loopFail h1 h2 =>
    obtain ⟨a1, a2, _⟩ := first _ _ h1
    obtain ⟨ts'', e, _⟩ := loop_ok B he h2 hl a1
    cases e

theorem impl_total (B : Behaves bo Fam lo hi ntokens) (he : EnvOk env) {ts : TokenSet}
    {w : World} (hl : LoopSet Fam ntokens ts) (hw : WorldOk env w) :
    ∃ r w', Impl env bo ntokens ts w r w' := by
  have hwp : (getStats ts).wp env (Savable Fam ntokens) (fun r => ∃ st, r = .ok st) :=
    ⟨B.family hl.fam, fun st _ => ⟨_, rfl⟩⟩
  obtain ⟨r1, w1, h1⟩ := wp_total he _ hwp hw
  obtain ⟨⟨st, rfl⟩, a1, _⟩ := wp_sound he h1 hwp hw
  obtain ⟨r2, w2, h2⟩ := loop_total B he _ ts (fun _ => 0) w1 rfl hl a1
  obtain ⟨ts'', e, b1, b2, b3, b4, b5, _⟩ := loop_ok B he h2 hl a1
  subst e
  obtain ⟨ts3, hs⟩ := (sort_ok_iff ts'').2 (Tokens.Family.usable (B.family b1.fam)).inRange
  have hF3 : Family ts3 := sort_family (B.family b1.fam) hs
  have hwp3 : (finish ts'').wp env (Savable Fam ntokens) (fun _ => True) := by
    unfold finish
    refine wp_lift hs ?_
    exact ⟨hF3, fun st hst => trivial⟩
  obtain ⟨r3, w3, h3⟩ := wp_total he _ hwp3 b4
  exact ⟨r3, w3, .done h1 h2 h3⟩

end Optimize
end Tokens
