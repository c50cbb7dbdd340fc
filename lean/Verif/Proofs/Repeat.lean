import Verif.Model.Repeat
import Verif.Props.Optimize

/-! Runs with a fixed sort are runs, exist, and have one result. -/

set_option linter.unusedSimpArgs false
set_option linter.unusedVariables false

namespace Tokens
open Spec TokenSet Batch OptimizeBytes

namespace Optimize

variable {f : SortFn} {env env1 env2 : Env} {bo : BytesOptimizer} {Fam : TokenSet → Prop} {lo hi ntokens : Nat}

/-! ### They are runs -/

theorem RunBy.run (hf : f.Sorts) {α : Type} {p : Prog α} {w w' : World} {r : R α} (h : RunBy f env p w r w') :
    Run env p w r w' := by
  induction h with
  | pure => exact .pure
  | fail => exact .fail
  | stats hg _ ih => exact .stats hg ih
  | statsFail hf => exact .statsFail hf
  | pairs hg _ ih => exact .pairs hg ih
  | pairsFail hf => exact .pairsFail hf
  | sortUnstable _ ih => exact .sortUnstable (hf _ _).1 (hf _ _).2 ih
  | clock b _ ih => exact .clock b ih
  | save hf _ ih => exact .save hf ih
  | saveFail hf => exact .saveFail hf

theorem LoopBy.loop (hf : f.Sorts) {ts : TokenSet} {rc : Removals} {w w' : World} {r : R TokenSet}
    (h : LoopBy f env bo ntokens ts rc w r w') : Loop env bo ntokens ts rc w r w' := by
  induction h with
  | stop hs => exact .stop (hs.run hf)
  | fail hs => exact .fail (hs.run hf)
  | again hs h2 _ ih => exact .again (hs.run hf) (h2.run hf) ih
  | saveFail hs h2 => exact .saveFail (hs.run hf) (h2.run hf)

theorem ImplBy.impl (hf : f.Sorts) {ts : TokenSet} {w w' : World} {r : R TokenStats}
    (h : ImplBy f env bo ntokens ts w r w') : Impl env bo ntokens ts w r w' := by
  cases h with
  | done h1 h2 h3 => exact .done (h1.run hf) (h2.loop hf) (h3.run hf)
  | firstFail h1 => exact .firstFail (h1.run hf)
  | loopFail h1 h2 => exact .loopFail (h1.run hf) (h2.loop hf)

theorem OptimizeBy.optimize (hf : f.Sorts) {p : Processing} {ty : TokenType} {pre : Option TokenSet}
    {r : R TokenStats} {w : World} (h : OptimizeBy f env ntokens p ty pre r w) :
    OptimizeTokenset env ntokens p ty pre r w := by
  cases h with
  | run h1 h2 => exact .run (h1.run hf) (h2.impl hf)
  | startFail h1 => exact .startFail (h1.run hf)

/-! ### They exist -/

theorem wp_total_by (hf : f.Sorts) (he : EnvOk env) {S : TokenSet → Prop} {α : Type} (p : Prog α) :
    ∀ {Q : R α → Prop} {w : World}, p.wp env S Q → WorldOk env w → ∃ r w', RunBy f env p w r w' := by
  induction p with
  | pure a => exact fun _ _ => ⟨_, _, .pure⟩
  | fail e => exact fun _ _ => ⟨_, _, .fail⟩
  | stats ts k ih =>
    intro Q w h hw
    obtain ⟨ts', h1, h2, h3, _, key, h4⟩ := family_sort h.1
    obtain ⟨st, h5⟩ := tokenize_exists he (Tokens.Family.usable h2).accepted h3
    have : ∃ c' x, GetStats env.sampler env.initialSize env.nthreads w.cache ts c' x := by
      cases hc : w.cache key with
      | none => exact ⟨_, _, .miss h1 h4 hc h5⟩
      | some x => exact ⟨_, _, .hit h1 h4 hc⟩
    obtain ⟨c', x, hg⟩ := this
    obtain ⟨g1, full, g2, g3⟩ := stats_ok he h.1 hw hg
    subst g3
    obtain ⟨r, w', hrun⟩ := ih _ (w := ⟨c', w.saved⟩) (h.2 full g2) g1
    exact ⟨r, w', .stats hg hrun⟩
  | pairs ts k ih =>
    intro Q w h hw
    obtain ⟨ts', h1, h2, h3, _, key, h4⟩ := family_sort h.1
    obtain ⟨st, h5⟩ := tokenize_exists he (Tokens.Family.usable h2).accepted h3
    have hg : GetStatsWithPairs env.sampler env.initialSize env.nthreads w.cache ts _ st := .mk h1 h5 h4
    obtain ⟨g1, g2⟩ := pairs_ok he h.1 hw hg
    obtain ⟨r, w', hrun⟩ := ih _ (w := ⟨_, w.saved⟩) (h.2 st g2) g1
    exact ⟨r, w', .pairs hg hrun⟩
  | sortUnstable key l k ih =>
    intro Q w h hw
    obtain ⟨r, w', hrun⟩ := ih _ (h _ (hf key l).1 (hf key l).2) hw
    exact ⟨r, w', .sortUnstable hrun⟩
  | clock k ih =>
    intro Q w h hw
    obtain ⟨r, w', hrun⟩ := ih true (h true) hw
    exact ⟨r, w', .clock true hrun⟩
  | save ts k ih =>
    intro Q w h hw
    obtain ⟨g, hg⟩ := savedFile_ok h.2.1
    obtain ⟨r, w', hrun⟩ := ih (w := ⟨w.cache, w.saved ++ [g]⟩) h.2.2 hw
    exact ⟨r, w', .save hg hrun⟩

theorem loop_total_by (hf : f.Sorts) (B : Behaves bo Fam lo hi ntokens) (he : EnvOk env) (m : Nat × Nat) :
    ∀ (ts : TokenSet) (rc : Removals) (w : World), (ntokens - ts.tokens.length, tot env ts) = m →
      LoopSet Fam ntokens ts → WorldOk env w → ∃ r w', LoopBy f env bo ntokens ts rc w r w' := by
  induction m using lex_wf.induction with
  | _ m ih =>
    intro ts rc w e hl hw
    obtain ⟨r, w1, hrun⟩ := wp_total_by hf he _ (wp_step (env := env) (S := fun _ => False) B hl.fam hl.size rc) hw
    obtain ⟨h1, h2, o, rc', h3, h4⟩ := step_run B he hl hw (hrun.run hf)
    subst h3
    cases o with
    | none => exact ⟨_, _, .stop hrun⟩
    | some ts' =>
      obtain ⟨hb, hsort⟩ := h4 ts' rfl
      have hl' : LoopSet Fam ntokens ts' := ⟨hb.fam, hb.size⟩
      obtain ⟨r2, w2, hrun2⟩ := wp_total_by hf he _ (wp_maybeSave (env := env) (S := Savable Fam ntokens)
        ⟨hl', hsort⟩ (Tokens.Family.usable (B.family hl'.fam)).inRange) h1
      obtain ⟨g1, g2, g3⟩ := save_run B he ⟨hl', hsort⟩ h1 (hrun2.run hf)
      subst g3
      have := better_measure hb
      rw [e] at this
      obtain ⟨r3, w3, h5⟩ := ih _ this ts' rc' w2 rfl hl' g1
      exact ⟨r3, w3, .again hrun hrun2 h5⟩

theorem impl_total_by (hf : f.Sorts) (B : Behaves bo Fam lo hi ntokens) (he : EnvOk env) {ts : TokenSet}
    {w : World} (hl : LoopSet Fam ntokens ts) (hw : WorldOk env w) :
    ∃ r w', ImplBy f env bo ntokens ts w r w' := by
  have hwp : (getStats ts).wp env (Savable Fam ntokens) (fun r => ∃ st, r = .ok st) :=
    ⟨B.family hl.fam, fun st _ => ⟨_, rfl⟩⟩
  obtain ⟨r1, w1, h1⟩ := wp_total_by hf he _ hwp hw
  obtain ⟨⟨st, rfl⟩, a1, _⟩ := wp_sound he (h1.run hf) hwp hw
  obtain ⟨r2, w2, h2⟩ := loop_total_by hf B he _ ts (fun _ => 0) w1 rfl hl a1
  obtain ⟨ts'', e, b1, b2, b3, b4, b5, _⟩ := loop_ok B he (h2.loop hf) hl a1
  subst e
  obtain ⟨ts3, hs⟩ := (sort_ok_iff ts'').2 (Tokens.Family.usable (B.family b1.fam)).inRange
  have hF3 : Family ts3 := sort_family (B.family b1.fam) hs
  have hwp3 : (finish ts'').wp env (Savable Fam ntokens) (fun _ => True) := by
    unfold finish
    refine wp_lift hs ?_
    exact ⟨hF3, fun st hst => trivial⟩
  obtain ⟨r3, w3, h3⟩ := wp_total_by hf he _ hwp3 b4
  exact ⟨r3, w3, .done h1 h2 h3⟩

/-! ### They have one result -/

/-- A program that does not ask the clock (and saves nothing). -/
def NoClock {α : Type} : Prog α → Prop
  | .pure _ => True
  | .fail _ => True
  | .stats _ k => ∀ st, NoClock (k st)
  | .pairs _ k => ∀ st, NoClock (k st)
  | .sortUnstable _ _ k => ∀ l, NoClock (k l)
  | .clock _ => False
  | .save _ _ => False

theorem noClock_bind {α β : Type} {p : Prog α} {g : α → Prog β} (h : NoClock p) (hg : ∀ a, NoClock (g a)) :
    NoClock (p >>= g) := by
  change NoClock (p.bind g)
  induction p with
  | pure a => exact hg a
  | fail e => exact trivial
  | stats ts k ih => exact fun st => ih st (h st)
  | pairs ts k ih => exact fun st => ih st (h st)
  | sortUnstable key l k ih => exact fun l' => ih l' (h l')
  | clock k ih => exact h.elim
  | save ts k ih => exact h.elim

theorem noClock_pure {α : Type} (a : α) : NoClock (pure a : Prog α) := trivial

theorem noClock_lift {α : Type} (x : R α) : NoClock (Prog.lift x) := by cases x <;> exact trivial

theorem noClock_stats (ts : TokenSet) : NoClock (getStats ts) := fun _ => trivial
theorem noClock_pairs (ts : TokenSet) : NoClock (getStatsWithPairs ts) := fun _ => trivial
theorem noClock_sort (key : Bytes → Nat) (l : List Bytes) : NoClock (sortUnstableBy key l) := fun _ => trivial

theorem noClock_addToken (ts : TokenSet) : NoClock (addToken bo ts) := by
  unfold addToken
  exact noClock_bind (noClock_pairs _) fun _ => noClock_bind (noClock_lift _) fun _ =>
    noClock_bind (noClock_lift _) fun _ => noClock_pure _

theorem noClock_removeLoop (ts : TokenSet) (total : Nat) (l : List Bytes) :
    ∀ rc, NoClock (removeLoop bo ts ntokens total l rc) := by
  induction l with
  | nil => intro rc; exact trivial
  | cons s rest ih =>
    intro rc
    unfold removeLoop
    refine noClock_bind (noClock_lift _) fun _ => noClock_bind (noClock_lift _) fun _ =>
      noClock_bind (noClock_lift _) fun _ => noClock_bind (noClock_lift _) fun _ =>
      noClock_bind (noClock_addToken _) fun o => ?_
    cases o with
    | none => exact ih _
    | some ts2 =>
      refine noClock_bind (noClock_stats _) fun st2 => ?_
      split
      · exact noClock_pure _
      · exact ih _

theorem noClock_tradeByte (ts : TokenSet) (st : TokenStats) : NoClock (tradeByte bo ts ntokens st) := by
  unfold tradeByte
  refine noClock_bind (noClock_lift _) fun n => ?_
  split
  · refine noClock_bind (noClock_lift _) fun _ => noClock_bind (noClock_lift _) fun _ =>
      noClock_bind (noClock_lift _) fun _ => noClock_bind (noClock_lift _) fun _ =>
      noClock_bind (noClock_pairs _) fun _ => noClock_bind (noClock_lift _) fun o => ?_
    cases o with
    | none => exact noClock_pure _
    | some x =>
      refine noClock_bind (noClock_stats _) fun st2 => ?_
      split <;> exact noClock_pure _
  · exact noClock_pure _

theorem noClock_removeAdd (ts : TokenSet) (rc : Removals) : NoClock (removeAddToken bo ts ntokens rc) := by
  unfold removeAddToken
  split
  · refine noClock_bind (noClock_addToken _) fun o => ?_
    cases o with
    | none => exact noClock_pure _
    | some x => exact noClock_bind (noClock_stats _) fun st2 => noClock_pure _
  · refine noClock_bind (noClock_lift _) fun _ => noClock_bind (noClock_stats _) fun _ =>
      noClock_bind (noClock_tradeByte _ _) fun o => ?_
    cases o with
    | some x => exact noClock_pure _
    | none => exact noClock_bind (noClock_sort _ _) fun l => noClock_removeLoop _ _ _ _

theorem noClock_step (ts : TokenSet) (rc : Removals) : NoClock (optimizationStep bo ts ntokens rc) := by
  unfold optimizationStep
  refine noClock_bind (noClock_stats _) fun _ => noClock_bind (noClock_lift _) fun _ =>
    noClock_bind (noClock_lift _) fun _ => noClock_bind (noClock_stats _) fun _ => ?_
  split
  · exact noClock_pure _
  · refine noClock_bind (noClock_removeAdd _ _) fun o => ?_
    rcases o with ⟨_ | st2, rc'⟩
    · exact noClock_pure _
    · exact noClock_bind (noClock_lift _) fun _ => noClock_pure _

theorem noClock_start (n : Nat) (p : Processing) (ty : TokenType) (pre : Option TokenSet) :
    NoClock (startSet n p ty pre) := by
  cases pre with
  | some ts => exact noClock_pure _
  | none =>
    cases ty with
    | bits1 => exact noClock_lift (TokenSet.newBits1 p true)
    | bits2 => exact noClock_lift (TokenSet.newBits2 p true)
    | bits4 => exact noClock_lift (TokenSet.newBits4 p true)
    | bytes =>
      simp only [startSet]
      generalize TokenSet.newBytes p = x
      exact noClock_lift x
    | bytesHuff =>
      simp only [startSet]
      generalize TokenSet.newBytes p = x
      exact noClock_bind (noClock_lift x) fun ts =>
        noClock_bind (noClock_stats ts) fun st => noClock_lift (huff st n)

theorem noClock_finish (ts : TokenSet) : NoClock (finish ts) := by
  unfold finish
  exact noClock_bind (noClock_lift _) fun _ => noClock_stats _

/-- The tokenizer says the same in both surroundings. -/
structure SameData (env1 env2 : Env) : Prop where
  fresh : ∀ {ts st}, Fresh env2 ts st → Fresh env1 ts st

theorem sameData_perm (h : env1.sampler.samples.Perm env2.sampler.samples)
    (hi : env1.initialSize = env2.initialSize) : SameData env1 env2 := by
  refine ⟨?_⟩
  rintro ts st ⟨ts', h1, h2⟩
  refine ⟨ts', h1, ?_⟩
  obtain ⟨tk, d, e1, _, w1, f1, f2, g1⟩ := sync_inv (sort_inRange h1) h2
  obtain ⟨st', c1, c2, c3, c4⟩ := sync_ok e1 w1 env1.sampler.samples env1.initialSize
  rw [c1, stats_ext c2 f1 (by rw [c3, f2, hi]) (fun ix => by rw [c4 ix, g1 ix, workSum_perm h])]

/-- Programs that do not ask the clock have one result. -/
theorem one_result (hd : SameData env1 env2) (he1 : EnvOk env1) (he2 : EnvOk env2) {S : TokenSet → Prop}
    {α : Type} {p : Prog α} {w1 w1' : World} {r1 : R α} (h1 : RunBy f env1 p w1 r1 w1') :
    ∀ {Q : R α → Prop} {w2 w2' : World} {r2 : R α}, f.Sorts → NoClock p → p.wp env1 S Q →
      WorldOk env1 w1 → WorldOk env2 w2 → RunBy f env2 p w2 r2 w2' → r1 = r2 := by
  induction h1 with
  | pure => intro Q w2 w2' r2 _ _ _ _ _ h2; cases h2; rfl
  | fail => intro Q w2 w2' r2 _ _ _ _ _ h2; cases h2; rfl
  | stats hg _ ih =>
    intro Q w2 w2' r2 hf hn hwp hw1 hw2 h2
    obtain ⟨a1, full1, a2, a3⟩ := stats_ok he1 hwp.1 hw1 hg
    cases h2 with
    | stats hg2 hk2 =>
      obtain ⟨b1, full2, b2, b3⟩ := stats_ok he2 hwp.1 hw2 hg2
      have e := fresh_unique a2 (hd.fresh b2)
      subst e
      subst a3 b3
      exact ih hf (hn _) (hwp.2 _ a2) a1 (w2 := ⟨_, w2.saved⟩) b1 hk2
    | statsFail hf => exact absurd hf (stats_fails_not he2 hwp.1)
  | statsFail hf' =>
    intro Q w2 w2' r2 hf hn hwp hw1 hw2 h2
    exact absurd hf' (stats_fails_not he1 hwp.1)
  | pairs hg _ ih =>
    intro Q w2 w2' r2 hf hn hwp hw1 hw2 h2
    obtain ⟨a1, a2⟩ := pairs_ok he1 hwp.1 hw1 hg
    cases h2 with
    | pairs hg2 hk2 =>
      obtain ⟨b1, b2⟩ := pairs_ok he2 hwp.1 hw2 hg2
      have e := fresh_unique a2 (hd.fresh b2)
      subst e
      exact ih hf (hn _) (hwp.2 _ a2) a1 (w2 := ⟨_, w2.saved⟩) b1 hk2
    | pairsFail hf => exact absurd hf (pairs_fails_not he2 hwp.1)
  | pairsFail hf' =>
    intro Q w2 w2' r2 hf hn hwp hw1 hw2 h2
    exact absurd hf' (pairs_fails_not he1 hwp.1)
  | sortUnstable _ ih =>
    intro Q w2 w2' r2 hf hn hwp hw1 hw2 h2
    cases h2 with
    | sortUnstable hk2 => exact ih hf (hn _) (hwp _ (hf _ _).1 (hf _ _).2) hw1 hw2 hk2
  | clock b _ _ => intro Q w2 w2' r2 hf hn; exact hn.elim
  | save _ _ _ => intro Q w2 w2' r2 hf hn; exact hn.elim
  | saveFail _ => intro Q w2 w2' r2 hf hn; exact hn.elim

theorem loop_one (hd : SameData env1 env2) (he1 : EnvOk env1) (he2 : EnvOk env2) (hf : f.Sorts)
    (B : Behaves bo Fam lo hi ntokens) {ts : TokenSet} {rc : Removals} {w1 w1' : World} {r1 : R TokenSet}
    (h1 : LoopBy f env1 bo ntokens ts rc w1 r1 w1') :
    ∀ {w2 w2' : World} {r2 : R TokenSet}, LoopSet Fam ntokens ts → WorldOk env1 w1 → WorldOk env2 w2 →
      LoopBy f env2 bo ntokens ts rc w2 r2 w2' → r1 = r2 := by
  have step : ∀ {ts rc w1 x1 w1' w2 x2 w2'}, LoopSet Fam ntokens ts → WorldOk env1 w1 → WorldOk env2 w2 →
      RunBy f env1 (optimizationStep bo ts ntokens rc) w1 x1 w1' →
      RunBy f env2 (optimizationStep bo ts ntokens rc) w2 x2 w2' → x1 = x2 := by
    intro ts rc w1 x1 w1' w2 x2 w2' hl hw1 hw2 h1 h2
    exact one_result hd he1 he2 h1 hf (noClock_step _ _)
      (wp_step (env := env1) (S := fun _ => False) B hl.fam hl.size rc) hw1 hw2 h2
  induction h1 with
  | stop hs =>
    intro w2 w2' r2 hl hw1 hw2 h2
    cases h2 with
    | stop hs2 => rfl
    | fail hs2 => cases step hl hw1 hw2 hs hs2
    | again hs2 _ _ => cases step hl hw1 hw2 hs hs2
    | saveFail hs2 _ => cases step hl hw1 hw2 hs hs2
  | fail hs =>
    intro w2 w2' r2 hl hw1 hw2 h2
    obtain ⟨_, _, o, rc', e, _⟩ := step_run B he1 hl hw1 (hs.run hf)
    cases e
  | again hs hsv _ ih =>
    intro w2 w2' r2 hl hw1 hw2 h2
    obtain ⟨a1, _, o, rc', e, a2⟩ := step_run B he1 hl hw1 (hs.run hf)
    cases e
    obtain ⟨hb, hsort⟩ := a2 _ rfl
    have hl' : LoopSet Fam ntokens _ := ⟨hb.fam, hb.size⟩
    obtain ⟨b1, _, _⟩ := save_run B he1 ⟨hl', hsort⟩ a1 (hsv.run hf)
    cases h2 with
    | stop hs2 => cases step hl hw1 hw2 hs hs2
    | fail hs2 => cases step hl hw1 hw2 hs hs2
    | again hs2 hsv2 hk2 =>
      cases step hl hw1 hw2 hs hs2
      obtain ⟨c1, _⟩ := step_run B he2 hl hw2 (hs2.run hf)
      obtain ⟨d1, _, _⟩ := save_run B he2 ⟨hl', hsort⟩ c1 (hsv2.run hf)
      exact ih hl' b1 d1 hk2
    | saveFail hs2 hsv2 =>
      cases step hl hw1 hw2 hs hs2
      obtain ⟨c1, _⟩ := step_run B he2 hl hw2 (hs2.run hf)
      obtain ⟨_, _, e⟩ := save_run B he2 ⟨hl', hsort⟩ c1 (hsv2.run hf)
      cases e
  | saveFail hs hsv =>
    intro w2 w2' r2 hl hw1 hw2 h2
    obtain ⟨a1, _, o, rc', e, a2⟩ := step_run B he1 hl hw1 (hs.run hf)
    cases e
    obtain ⟨hb, hsort⟩ := a2 _ rfl
    obtain ⟨_, _, e⟩ := save_run B he1 ⟨⟨hb.fam, hb.size⟩, hsort⟩ a1 (hsv.run hf)
    cases e

theorem impl_one (hd : SameData env1 env2) (he1 : EnvOk env1) (he2 : EnvOk env2) (hf : f.Sorts)
    (B : Behaves bo Fam lo hi ntokens) {ts : TokenSet} {w1 w1' w2 w2' : World} {r1 r2 : R TokenStats}
    (hl : LoopSet Fam ntokens ts) (hw1 : WorldOk env1 w1) (hw2 : WorldOk env2 w2)
    (h1 : ImplBy f env1 bo ntokens ts w1 r1 w1') (h2 : ImplBy f env2 bo ntokens ts w2 r2 w2') : r1 = r2 := by
  have inv : ∀ {env w r w'}, EnvOk env → WorldOk env w → ImplBy f env bo ntokens ts w r w' →
      ∃ w1 ts' w2, WorldOk env w1 ∧ LoopBy f env bo ntokens ts (fun _ => 0) w1 (.ok ts') w2 ∧
        LoopSet Fam ntokens ts' ∧ WorldOk env w2 ∧ RunBy f env (finish ts') w2 r w' := by
    intro env w r w' he hw h
    have hwp : (getStats ts).wp env (Savable Fam ntokens) (fun r => ∃ st, r = .ok st) :=
      ⟨B.family hl.fam, fun st _ => ⟨_, rfl⟩⟩
    cases h with
    | done g1 g2 g3 =>
      obtain ⟨_, a1, _⟩ := wp_sound he (g1.run hf) hwp hw
      obtain ⟨ts'', e, b1, _, _, b4, _⟩ := loop_ok B he (g2.loop hf) hl a1
      cases e
      exact ⟨_, _, _, a1, g2, b1, b4, g3⟩
    | firstFail g1 =>
      obtain ⟨⟨_, e⟩, _⟩ := wp_sound he (g1.run hf) hwp hw
      cases e
    | loopFail g1 g2 =>
      obtain ⟨_, a1, _⟩ := wp_sound he (g1.run hf) hwp hw
      obtain ⟨ts'', e, _⟩ := loop_ok B he (g2.loop hf) hl a1
      cases e
  obtain ⟨u1, t1, v1, a1, a2, a3, a4, a5⟩ := inv he1 hw1 h1
  obtain ⟨u2, t2, v2, b1, b2, b3, b4, b5⟩ := inv he2 hw2 h2
  have e := loop_one hd he1 he2 hf B a2 hl a1 b1 b2
  cases e
  obtain ⟨ts3, hs⟩ := (sort_ok_iff t1).2 (Tokens.Family.usable (B.family a3.fam)).inRange
  have hF3 : Family ts3 := sort_family (B.family a3.fam) hs
  have hwp3 : (finish t1).wp env1 (Savable Fam ntokens) (fun _ => True) := by
    unfold finish
    refine wp_lift hs ?_
    exact ⟨hF3, fun st hst => trivial⟩
  exact one_result hd he1 he2 a5 hf (noClock_finish _) hwp3 a4 b4 b5

end Optimize
end Tokens
