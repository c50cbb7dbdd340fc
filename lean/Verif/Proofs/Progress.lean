import Verif.Spec.Progress
import Verif.Proofs.Running
import Verif.Props.Optimum

/-! The files that the optimizer writes get better and better. -/

set_option linter.unusedVariables false

namespace Tokens
open Spec TokenSet Batch OptimizeBytes

namespace Optimize

variable {env : Env} {bo : BytesOptimizer} {Fam : TokenSet → Prop} {lo hi ntokens : Nat}

theorem sameSet_trans {a b c : TokenSet} (h1 : SameSet a b) (h2 : SameSet b c) : SameSet a c :=
  ⟨⟨h1.header.nExt.trans h2.header.nExt, h1.header.tokenType.trans h2.header.tokenType,
    h1.header.processing.trans h2.header.processing,
    h1.header.splitParagraphs.trans h2.header.splitParagraphs⟩, h1.tokens.trans h2.tokens,
    h1.sequences.trans h2.sequences⟩

/-- What one round, and so many rounds, of the loop achieve. -/
structure Ahead (env : Env) (bo : BytesOptimizer) (Fam : TokenSet → Prop) (hi ntokens : Nat)
    (a b : TokenSet) : Prop where
  size : a.tokens.length ≤ b.tokens.length
  same : a.tokens.length = b.tokens.length → tot env b < tot env a
  less : Safe bo Fam hi ntokens a → Safe bo Fam hi ntokens b ∧ tot env b ≤ tot env a

theorem Ahead.trans {a b c : TokenSet} (h1 : Ahead env bo Fam hi ntokens a b)
    (h2 : Ahead env bo Fam hi ntokens b c) : Ahead env bo Fam hi ntokens a c := by
  have s1 := h1.size
  have s2 := h2.size
  refine ⟨Nat.le_trans s1 s2, ?_, ?_⟩
  · intro e
    exact Nat.lt_trans (h2.same (by omega)) (h1.same (by omega))
  · intro hs
    obtain ⟨g1, g2⟩ := h1.less hs
    obtain ⟨g3, g4⟩ := h2.less g1
    exact ⟨g3, Nat.le_trans g4 g2⟩

theorem better_ahead {a b : TokenSet} (h : Better env bo Fam hi ntokens a b) :
    Ahead env bo Fam hi ntokens a b := by
  refine ⟨?_, ?_, fun hs => ⟨h.keeps hs, h.less hs⟩⟩
  · rcases h.progress with ⟨_, g⟩ | g <;> omega
  · intro e
    rcases h.progress with ⟨g, _⟩ | g
    · exact g
    · omega

theorem maybeSave_inv {ts : TokenSet} {w w' : World} (h : Run env (maybeSave ts) w (.ok ()) w') :
    w'.saved = w.saved ∨ ∃ f, savedFile ts = .ok f ∧ w'.saved = w.saved ++ [f] := by
  unfold maybeSave at h
  cases h with
  | clock b hk =>
    cases b with
    | false =>
      cases hk
      exact .inl rfl
    | true =>
      cases hk with
      | save hf hk =>
        cases hk
        exact .inr ⟨_, hf, rfl⟩

/-- The sets written since `w`, and what they hold. -/
structure WroteSets (env : Env) (bo : BytesOptimizer) (Fam : TokenSet → Prop) (hi ntokens : Nat)
    (ts : TokenSet) (w w' : World) (sets : List TokenSet) : Prop where
  files : ∃ fs, w'.saved = w.saved ++ fs ∧ sets.map savedFile = fs.map .ok
  good : ∀ x ∈ sets, LoopSet Fam ntokens x
  order : sets.Pairwise (Ahead env bo Fam hi ntokens)
  after : ∀ x ∈ sets, Ahead env bo Fam hi ntokens ts x

theorem loop_ahead (B : Behaves bo Fam lo hi ntokens) (he : EnvOk env) {ts : TokenSet} {rc : Removals}
    {w w' : World} {r : R TokenSet} (h : Loop env bo ntokens ts rc w r w') :
    LoopSet Fam ntokens ts → WorldOk env w → ∀ ts', r = .ok ts' →
    (ts' = ts ∨ Ahead env bo Fam hi ntokens ts ts') ∧
    ∃ sets, WroteSets env bo Fam hi ntokens ts w w' sets ∧
      ∀ x ∈ sets, x = ts' ∨ Ahead env bo Fam hi ntokens x ts' := by
  have quiet : ∀ {w w' : World}, Wrote (fun _ => False) w w' → w'.saved = w.saved := by
    rintro w w' ⟨l, e, hl⟩
    cases l with
    | nil => simpa using e
    | cons f l => obtain ⟨_, hf, _⟩ := hl f (by simp); exact hf.elim
  induction h with
  | stop hs =>
    intro hl hw ts' e
    have e := Except.ok.inj e
    subst e
    obtain ⟨h1, h2, _⟩ := step_run B he hl hw hs
    exact ⟨.inl rfl, [], ⟨⟨[], by rw [quiet h2]; simp, rfl⟩, by simp, .nil, by simp⟩, by simp⟩
  | fail hs => intro _ _ _ e; cases e
  | @again ts rc w ts1 rc1 w1 w2 r w' hs hsave _ ih =>
    intro hl hw ts' e
    obtain ⟨h1, h2, o, rc', h3, h4⟩ := step_run B he hl hw hs
    cases h3
    obtain ⟨hb, hsort⟩ := h4 _ rfl
    have hl' : LoopSet Fam ntokens ts1 := ⟨hb.fam, hb.size⟩
    obtain ⟨g1, _, _⟩ := save_run B he ⟨hl', hsort⟩ h1 hsave
    have ha := better_ahead hb
    obtain ⟨k1, sets, ⟨⟨fs, k2, k3⟩, k4, k5, k6⟩, k7⟩ := ih hl' g1 ts' e
    refine ⟨?_, ?_⟩
    · rcases k1 with rfl | k1
      · exact .inr ha
      · exact .inr (ha.trans k1)
    · rcases maybeSave_inv hsave with hq | ⟨f, hf, hq⟩
      · refine ⟨sets, ⟨⟨fs, ?_, k3⟩, k4, k5, fun x hx => ha.trans (k6 x hx)⟩, k7⟩
        rw [k2, hq, quiet h2]
      · refine ⟨ts1 :: sets, ⟨⟨f :: fs, ?_, by rw [List.map_cons, List.map_cons, hf, k3]⟩, ?_, ?_, ?_⟩, ?_⟩
        · rw [k2, hq, quiet h2]; simp
        · intro x hx
          rcases List.mem_cons.1 hx with rfl | hx
          · exact hl'
          · exact k4 x hx
        · exact List.pairwise_cons.2 ⟨k6, k5⟩
        · intro x hx
          rcases List.mem_cons.1 hx with rfl | hx
          · exact ha
          · exact ha.trans (k6 x hx)
        · intro x hx
          rcases List.mem_cons.1 hx with rfl | hx
          · rcases k1 with k1 | k1
            · exact .inl k1.symm
            · exact .inr k1
          · exact k7 x hx
  | saveFail hs hsave => intro _ _ _ e; cases e

theorem impl_ahead (B : Behaves bo Fam lo hi ntokens) (he : EnvOk env) {ts : TokenSet}
    {w w' : World} {st : TokenStats} (hl : LoopSet Fam ntokens ts) (hw : WorldOk env w)
    (h : Impl env bo ntokens ts w (.ok st) w') :
    ∃ sets ts', WroteSets env bo Fam hi ntokens ts w w' sets ∧ SameSet st.tokenSet ts' ∧ LoopSet Fam ntokens ts' ∧
      st.totalTokens = tot env ts' ∧ ∀ x ∈ sets, x = ts' ∨ Ahead env bo Fam hi ntokens x ts' := by
  have quiet : ∀ {w w' : World}, Wrote (fun _ => False) w w' → w'.saved = w.saved := by
    rintro w w' ⟨l, e, hl⟩
    cases l with
    | nil => simpa using e
    | cons f l => obtain ⟨_, hf, _⟩ := hl f (by simp); exact hf.elim
  cases h with
  | @done _ _ tsl _ _ _ h1 h2 h3 =>
    have hwp : (getStats ts).wp env (fun _ => False) (fun r => ∃ st, r = .ok st) :=
      ⟨B.family hl.fam, fun st _ => ⟨_, rfl⟩⟩
    obtain ⟨_, a1, a2⟩ := wp_sound he h1 hwp hw
    obtain ⟨b1, sets, ⟨⟨fs, b2, b3⟩, b4, b5, b6⟩, b7⟩ := loop_ahead B he h2 hl a1 tsl rfl
    obtain ⟨ts'', e, c1, _, _, c4, _⟩ := loop_ok B he h2 hl a1
    have e := Except.ok.inj e
    subst e
    obtain ⟨ts3, hs⟩ := (sort_ok_iff tsl).2 (Tokens.Family.usable (B.family c1.fam)).inRange
    have hF3 : Family ts3 := sort_family (B.family c1.fam) hs
    have hwp3 : (finish tsl).wp env (fun _ => False)
        (fun r => ∃ full, r = .ok full.cloneWithoutPairs ∧ Fresh env ts3 full) := by
      unfold finish
      refine wp_lift hs ?_
      exact ⟨hF3, fun st hst => ⟨st, rfl, hst⟩⟩
    obtain ⟨⟨full, k1, k2⟩, k3, k4⟩ := wp_sound he h3 hwp3 c4
    have k1 := Except.ok.inj k1
    subst k1
    have htot : full.totalTokens = tot env tsl := by
      rw [tot_same (sort_sameSet hs).1.symm (B.family c1.fam) hF3, fresh_tot k2]
    obtain ⟨t, q1, q2⟩ := k2
    have hset : full.tokenSet = t := by
      obtain ⟨_, _, _, _, _, hsh, _, _⟩ := sync_inv (sort_inRange q1) q2
      exact hsh.tokenSet
    refine ⟨sets, tsl, ⟨⟨fs, ?_, b3⟩, b4, b5, b6⟩, ?_, c1, htot, b7⟩
    · rw [quiet k4, b2, quiet a2]
    · show SameSet full.tokenSet tsl
      rw [hset]
      exact sameSet_trans (sort_sameSet q1).1 (sort_sameSet hs).1

/-- With a clock that says yes the first set is written. -/
theorem loop_saving (B : Behaves bo Fam lo hi ntokens) (he : EnvOk env) {ts : TokenSet} {rc : Removals}
    {w : World} (hl : LoopSet Fam ntokens ts) (hw : WorldOk env w) :
    ∃ r w', Loop env bo ntokens ts rc w r w' ∧ (r = .ok ts ∨ w'.saved ≠ []) := by
  obtain ⟨r, w1, hrun⟩ := wp_total he _ (wp_step (env := env) (S := fun _ => False) B hl.fam hl.size rc) hw
  obtain ⟨h1, h2, o, rc', h3, h4⟩ := step_run B he hl hw hrun
  subst h3
  cases o with
  | none => exact ⟨_, _, .stop hrun, .inl rfl⟩
  | some ts' =>
    obtain ⟨hb, hsort⟩ := h4 ts' rfl
    have hl' : LoopSet Fam ntokens ts' := ⟨hb.fam, hb.size⟩
    obtain ⟨v, hv⟩ : ∃ v, ts'.toJson = .ok v := ⟨_, toJson_eq _ (Tokens.Family.usable (B.family hl'.fam)).inRange⟩
    have hf : savedFile ts' = .ok (ts'.name ++ ".json".toList, v.render) := by
      unfold savedFile
      rw [hv]
      rfl
    have hrun2 : Run env (maybeSave ts') w1 (.ok ()) ⟨w1.cache, w1.saved ++ [(ts'.name ++ ".json".toList, v.render)]⟩ := by
      unfold maybeSave
      exact .clock true (.save hf .pure)
    obtain ⟨g1, g2, g3⟩ := save_run B he ⟨hl', hsort⟩ h1 hrun2
    obtain ⟨r3, w3, h5, h6⟩ := loop_total' B he rc' hl' g1
    refine ⟨r3, w3, .again hrun hrun2 h5, .inr ?_⟩
    intro e
    rw [e, List.prefix_nil] at h6
    simp at h6

end Optimize
end Tokens
