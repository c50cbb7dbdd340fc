import Verif.Model.Log
import Verif.Proofs.Loop

/-! The console output of the optimizer. -/

set_option linter.unusedSimpArgs false
set_option linter.unusedVariables false

namespace Tokens
open Spec TokenSet Batch OptimizeBytes

namespace Optimize

variable {env : Env} {S : TokenSet → Prop} {bo : BytesOptimizer} {Fam : TokenSet → Prop}
  {lo hi ntokens : Nat}

/-! ### Printing changes nothing -/

theorem bind_run {α β : Type} {p : Prog α} {f : α → Prog β} {w w1 w' : World} {a : α} {r : R β}
    (h : Run env p w (.ok a) w1) (hk : Run env (f a) w1 r w') : Run env (p.bind f) w r w' := by
  generalize e : (Except.ok a : R α) = x at h
  induction h with
  | pure => cases e; exact hk
  | fail => cases e
  | stats hg _ ih => exact .stats hg (ih hk e)
  | statsFail hf => cases e
  | pairs hg _ ih => exact .pairs hg (ih hk e)
  | pairsFail hf => cases e
  | sortUnstable hp hs _ ih => exact .sortUnstable hp hs (ih hk e)
  | clock b _ ih => exact .clock b (ih hk e)
  | save hf _ ih => exact .save hf (ih hk e)
  | saveFail hf => cases e

theorem bind_run_fail {α β : Type} {p : Prog α} {f : α → Prog β} {w w' : World} {e : Err}
    (h : Run env p w (.error e) w') : Run env (p.bind f) w (.error e) w' := by
  generalize e' : (Except.error e : R α) = x at h
  induction h with
  | pure => cases e'
  | fail => cases e'; exact .fail
  | stats hg _ ih => exact .stats hg (ih e')
  | statsFail hf => cases e'; exact .statsFail hf
  | pairs hg _ ih => exact .pairs hg (ih e')
  | pairsFail hf => cases e'; exact .pairsFail hf
  | sortUnstable hp hs _ ih => exact .sortUnstable hp hs (ih e')
  | clock b _ ih => exact .clock b (ih e')
  | save hf _ ih => exact .save hf (ih e')
  | saveFail hf => cases e'; exact .saveFail hf

theorem run_bind {α β : Type} (p : Prog α) {f : α → Prog β} {w w' : World} {r : R β}
    (h : Run env (p.bind f) w r w') :
    (∃ a w1, Run env p w (.ok a) w1 ∧ Run env (f a) w1 r w') ∨
    ∃ e, r = .error e ∧ Run env p w (.error e) w' := by
  induction p generalizing w with
  | pure a => exact .inl ⟨a, w, .pure, h⟩
  | fail e => cases h; exact .inr ⟨e, rfl, .fail⟩
  | stats ts k ih =>
    cases h with
    | stats hg hk =>
      rcases ih _ hk with ⟨a, w1, h1, h2⟩ | ⟨e, rfl, h1⟩
      · exact .inl ⟨a, w1, .stats hg h1, h2⟩
      · exact .inr ⟨e, rfl, .stats hg h1⟩
    | statsFail hf => exact .inr ⟨_, rfl, .statsFail hf⟩
  | pairs ts k ih =>
    cases h with
    | pairs hg hk =>
      rcases ih _ hk with ⟨a, w1, h1, h2⟩ | ⟨e, rfl, h1⟩
      · exact .inl ⟨a, w1, .pairs hg h1, h2⟩
      · exact .inr ⟨e, rfl, .pairs hg h1⟩
    | pairsFail hf => exact .inr ⟨_, rfl, .pairsFail hf⟩
  | sortUnstable key l k ih =>
    cases h with
    | sortUnstable hp hs hk =>
      rcases ih _ hk with ⟨a, w1, h1, h2⟩ | ⟨e, rfl, h1⟩
      · exact .inl ⟨a, w1, .sortUnstable hp hs h1, h2⟩
      · exact .inr ⟨e, rfl, .sortUnstable hp hs h1⟩
  | clock k ih =>
    cases h with
    | clock b hk =>
      rcases ih _ hk with ⟨a, w1, h1, h2⟩ | ⟨e, rfl, h1⟩
      · exact .inl ⟨a, w1, .clock b h1, h2⟩
      · exact .inr ⟨e, rfl, .clock b h1⟩
  | save ts k ih =>
    cases h with
    | save hf hk =>
      rcases ih hk with ⟨a, w1, h1, h2⟩ | ⟨e, rfl, h1⟩
      · exact .inl ⟨a, w1, .save hf h1, h2⟩
      · exact .inr ⟨e, rfl, .save hf h1⟩
    | saveFail hf => exact .inr ⟨_, rfl, .saveFail hf⟩

/-- Runs with output are runs. -/
theorem talk_run {α : Type} {t : Talk α} {w w' : World} {r : R α} {out : List Printed}
    (h : RunT env t w r w' out) : Run env t.quiet w r w' := by
  induction h with
  | pure => exact .pure
  | say _ ih => exact ih
  | call h _ ih => exact bind_run h ih
  | callFail h => exact bind_run_fail h

/-- Runs are runs with some output. -/
theorem run_talk {α : Type} (t : Talk α) {w w' : World} {r : R α} (h : Run env t.quiet w r w') :
    ∃ out, RunT env t w r w' out := by
  induction t generalizing w with
  | pure a => cases h; exact ⟨_, .pure⟩
  | say e k ih => exact (ih h).imp' _ fun _ h => .say h
  | call p k ih =>
    rcases run_bind p h with ⟨a, w1, h1, h2⟩ | ⟨e, rfl, h1⟩
    · exact (ih _ h2).imp fun _ h => .call h1 h
    · exact ⟨_, .callFail h1⟩

theorem prog_bind_assoc {α β γ : Type} (p : Prog α) (f : α → Prog β) (g : β → Prog γ) :
    (p.bind f).bind g = p.bind (fun a => (f a).bind g) := by
  induction p with
  | pure a => rfl
  | fail e => rfl
  | stats ts k ih => exact congrArg (Prog.stats ts) (funext fun st => ih st)
  | pairs ts k ih => exact congrArg (Prog.pairs ts) (funext fun st => ih st)
  | sortUnstable key l k ih => exact congrArg (Prog.sortUnstable key l) (funext fun st => ih st)
  | clock k ih => exact congrArg Prog.clock (funext fun st => ih st)
  | save ts k ih => exact congrArg (Prog.save ts) ih

theorem prog_bind_pure {α : Type} (p : Prog α) : p.bind .pure = p := by
  induction p with
  | pure a => rfl
  | fail e => rfl
  | stats ts k ih => exact congrArg (Prog.stats ts) (funext fun st => ih st)
  | pairs ts k ih => exact congrArg (Prog.pairs ts) (funext fun st => ih st)
  | sortUnstable key l k ih => exact congrArg (Prog.sortUnstable key l) (funext fun st => ih st)
  | clock k ih => exact congrArg Prog.clock (funext fun st => ih st)
  | save ts k ih => exact congrArg (Prog.save ts) ih

theorem quiet_bind {α β : Type} (t : Talk α) (f : α → Talk β) :
    (t >>= f).quiet = t.quiet >>= fun a => (f a).quiet := by
  show (t.bind f).quiet = t.quiet.bind fun a => (f a).quiet
  induction t with
  | pure a => rfl
  | say e k ih => exact ih
  | call p k ih =>
    show p.bind (fun b => ((k b).bind f).quiet) = (p.bind fun b => (k b).quiet).bind _
    rw [prog_bind_assoc]
    exact congrArg p.bind (funext fun b => ih b)

theorem quiet_silent {α : Type} (p : Prog α) : (silent p).quiet = p := prog_bind_pure p

theorem quiet_say {α : Type} (e : Printed) (f : Unit → Talk α) : (say e >>= f).quiet = (f ()).quiet := rfl

theorem quiet_call {α β : Type} (p : Prog α) (f : α → Talk β) :
    (silent p >>= f).quiet = p >>= fun a => (f a).quiet := rfl

theorem quiet_pure {α : Type} (a : α) : (pure a : Talk α).quiet = pure a := rfl

theorem quiet_removeLoop (bo : BytesOptimizer) (ts : TokenSet) (ntokens total : Nat) (l : List Bytes) :
    ∀ rc, (removeLoopT bo ts ntokens total l rc).quiet = removeLoop bo ts ntokens total l rc := by
  induction l with
  | nil => intro rc; rfl
  | cons s rest ih =>
    intro rc
    unfold removeLoopT removeLoop
    rw [quiet_say, quiet_call]
    refine congrArg (Prog.bind _) (funext fun idx => ?_)
    rw [quiet_call]
    refine congrArg (Prog.bind _) (funext fun ts1 => ?_)
    rw [quiet_call]
    refine congrArg (Prog.bind _) (funext fun m => ?_)
    rw [quiet_call]
    refine congrArg (Prog.bind _) (funext fun _ => ?_)
    rw [quiet_call]
    refine congrArg (Prog.bind _) (funext fun o => ?_)
    cases o with
    | none => exact ih _
    | some ts2 =>
      dsimp only
      rw [quiet_call]
      refine congrArg (Prog.bind _) (funext fun st2 => ?_)
      split
      · rfl
      · exact ih _

theorem quiet_tradeByte (bo : BytesOptimizer) (ts : TokenSet) (ntokens : Nat) (st : TokenStats) :
    (tradeByteT bo ts ntokens st).quiet = tradeByte bo ts ntokens st := by
  unfold tradeByteT tradeByte
  rw [quiet_call]
  refine congrArg (Prog.bind _) (funext fun n => ?_)
  split
  · rw [quiet_call]
    refine congrArg (Prog.bind _) (funext fun _ => ?_)
    rw [quiet_call]
    refine congrArg (Prog.bind _) (funext fun _ => ?_)
    rw [quiet_call]
    refine congrArg (Prog.bind _) (funext fun _ => ?_)
    rw [quiet_call]
    refine congrArg (Prog.bind _) (funext fun _ => ?_)
    rw [quiet_call]
    refine congrArg (Prog.bind _) (funext fun _ => ?_)
    rw [quiet_call]
    refine congrArg (Prog.bind _) (funext fun o => ?_)
    cases o with
    | none => rfl
    | some x =>
      dsimp only
      rw [quiet_call]
      refine congrArg (Prog.bind _) (funext fun _ => ?_)
      split <;> rfl
  · rfl

theorem quiet_removeAdd (bo : BytesOptimizer) (ts : TokenSet) (ntokens : Nat) (rc : Removals) :
    (removeAddTokenT bo ts ntokens rc).quiet = removeAddToken bo ts ntokens rc := by
  unfold removeAddTokenT removeAddToken
  split
  · rw [quiet_call]
    refine congrArg (Prog.bind _) (funext fun o => ?_)
    cases o with
    | none => rfl
    | some x => rfl
  · rw [quiet_call]
    refine congrArg (Prog.bind _) (funext fun _ => ?_)
    rw [quiet_call]
    refine congrArg (Prog.bind _) (funext fun _ => ?_)
    rw [quiet_bind, quiet_tradeByte]
    refine congrArg (Prog.bind _) (funext fun o => ?_)
    cases o with
    | some x => rfl
    | none =>
      dsimp only
      rw [quiet_call]
      refine congrArg (Prog.bind _) (funext fun _ => ?_)
      rw [quiet_say, quiet_removeLoop]

theorem quiet_step (bo : BytesOptimizer) (ts : TokenSet) (ntokens : Nat) (rc : Removals) :
    (optimizationStepT bo ts ntokens rc).quiet = optimizationStep bo ts ntokens rc := by
  unfold optimizationStepT optimizationStep
  rw [quiet_call]
  refine congrArg (Prog.bind _) (funext fun _ => ?_)
  rw [quiet_call]
  refine congrArg (Prog.bind _) (funext fun _ => ?_)
  rw [quiet_call]
  refine congrArg (Prog.bind _) (funext fun _ => ?_)
  rw [quiet_call]
  refine congrArg (Prog.bind _) (funext fun _ => ?_)
  split
  · rfl
  · rw [quiet_bind, quiet_removeAdd]
    refine congrArg (Prog.bind _) (funext fun o => ?_)
    obtain ⟨o, rc'⟩ := o
    cases o <;> rfl

theorem quiet_maybeSave (ts : TokenSet) : (maybeSaveT ts).quiet = maybeSave ts := by
  unfold maybeSaveT maybeSave
  rw [quiet_call]
  refine congrArg (Prog.bind _) (funext fun b => ?_)
  cases b <;> rfl

theorem loopT_loop {ts rc w r w' o} (h : LoopT env bo ntokens ts rc w r w' o) :
    Loop env bo ntokens ts rc w r w' := by
  induction h with
  | stop hs => exact .stop (by rw [← quiet_step]; exact talk_run hs)
  | fail hs => exact .fail (by rw [← quiet_step]; exact talk_run hs)
  | again hs hsave _ ih =>
    exact .again (by rw [← quiet_step]; exact talk_run hs) (by rw [← quiet_maybeSave]; exact talk_run hsave) ih
  | saveFail hs hsave =>
    exact .saveFail (by rw [← quiet_step]; exact talk_run hs) (by rw [← quiet_maybeSave]; exact talk_run hsave)

theorem loop_loopT {ts rc w r w'} (h : Loop env bo ntokens ts rc w r w') :
    ∃ o, LoopT env bo ntokens ts rc w r w' o := by
  induction h with
  | stop hs => exact (run_talk _ (by rw [quiet_step]; exact hs)).imp fun _ h => .stop h
  | fail hs => exact (run_talk _ (by rw [quiet_step]; exact hs)).imp fun _ h => .fail h
  | again hs hsave _ ih =>
    obtain ⟨o1, h1⟩ := run_talk (optimizationStepT _ _ _ _) (by rw [quiet_step]; exact hs)
    obtain ⟨o2, h2⟩ := run_talk (maybeSaveT _) (by rw [quiet_maybeSave]; exact hsave)
    obtain ⟨o3, h3⟩ := ih
    exact ⟨_, .again h1 h2 h3⟩
  | saveFail hs hsave =>
    obtain ⟨o1, h1⟩ := run_talk (optimizationStepT _ _ _ _) (by rw [quiet_step]; exact hs)
    obtain ⟨o2, h2⟩ := run_talk (maybeSaveT _) (by rw [quiet_maybeSave]; exact hsave)
    exact ⟨_, .saveFail h1 h2⟩

theorem implT_iff {ts w r w'} :
    (∃ o, ImplT env bo ntokens ts w r w' o) ↔ Impl env bo ntokens ts w r w' := by
  constructor
  · rintro ⟨o, h⟩
    cases h with
    | done h1 h2 h3 => exact .done h1 (loopT_loop h2) h3
    | firstFail h1 => exact .firstFail h1
    | loopFail h1 h2 => exact .loopFail h1 (loopT_loop h2)
  · intro h
    cases h with
    | done h1 h2 h3 => exact (loop_loopT h2).elim fun _ h => ⟨_, .done h1 h h3⟩
    | firstFail h1 => exact ⟨_, .firstFail h1⟩
    | loopFail h1 h2 => exact (loop_loopT h2).elim fun _ h => ⟨_, .loopFail h1 h⟩

theorem optimizeT_iff {nt p ty pre r w} :
    (∃ o, OptimizeTokensetT env nt p ty pre r w o) ↔ OptimizeTokenset env nt p ty pre r w := by
  constructor
  · rintro ⟨o, h⟩
    cases h with
    | run h1 h2 => exact .run h1 (implT_iff.1 ⟨_, h2⟩)
    | startFail h1 => exact .startFail h1
  · intro h
    cases h with
    | run h1 h2 => exact (implT_iff.2 h2).elim fun _ h => ⟨_, .run h1 h⟩
    | startFail h1 => exact ⟨_, .startFail h1⟩

end Optimize
end Tokens
