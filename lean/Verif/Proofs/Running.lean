import Verif.Proofs.Disk
import Verif.Model.Running

/-! Executions that have not ended. -/

set_option linter.unusedSimpArgs false
set_option linter.unusedVariables false

namespace Tokens
open Spec TokenSet Optimize Batch Main Input Props Disk

namespace Optimize
open OptimizeBytes

/-! ### They can be completed -/

variable {env : Env} {S : TokenSet → Prop}

theorem Wrote.prefix {w w' : World} (h : Wrote S w w') : w.saved <+: w'.saved := by
  obtain ⟨l, h, _⟩ := h
  exact ⟨l, h.symm⟩

theorem part_complete (he : EnvOk env) {α : Type} {p : Prog α} {w w' : World} (h : Part env p w w') :
    ∀ {Q : R α → Prop}, p.wp env S Q → WorldOk env w →
      ∃ r w'', Run env p w r w'' ∧ w'.saved <+: w''.saved := by
  induction h with
  | @here p w =>
    intro Q hq hw
    obtain ⟨r, w', h⟩ := wp_total he p hq hw
    exact ⟨r, w', h, (wp_sound he h hq hw).2.2.prefix⟩
  | stats hg _ ih =>
    intro Q h hw
    obtain ⟨h1, full, h2, h3⟩ := stats_ok he h.1 hw hg
    subst h3
    obtain ⟨r, w2, k1, k2⟩ := ih (h.2 full h2) h1
    exact ⟨r, w2, .stats hg k1, k2⟩
  | pairs hg _ ih =>
    intro Q h hw
    obtain ⟨h1, h2⟩ := pairs_ok he h.1 hw hg
    obtain ⟨r, w2, k1, k2⟩ := ih (h.2 _ h2) h1
    exact ⟨r, w2, .pairs hg k1, k2⟩
  | sortUnstable hp hs _ ih =>
    intro Q h hw
    obtain ⟨r, w2, k1, k2⟩ := ih (h _ hp hs) hw
    exact ⟨r, w2, .sortUnstable hp hs k1, k2⟩
  | clock b _ ih =>
    intro Q h hw
    obtain ⟨r, w2, k1, k2⟩ := ih (h b) hw
    exact ⟨r, w2, .clock b k1, k2⟩
  | save hf _ ih =>
    intro Q h hw
    obtain ⟨r, w2, k1, k2⟩ := ih h.2.2 hw
    exact ⟨r, w2, .save hf k1, k2⟩

variable {bo : BytesOptimizer} {Fam : TokenSet → Prop} {lo hi ntokens : Nat}

theorem loop_total' (B : Behaves bo Fam lo hi ntokens) (he : EnvOk env) {ts : TokenSet} (rc : Removals)
    {w : World} (hl : LoopSet Fam ntokens ts) (hw : WorldOk env w) :
    ∃ r w', Loop env bo ntokens ts rc w r w' ∧ w.saved <+: w'.saved := by
  obtain ⟨r, w', h⟩ := loop_total B he _ ts rc w rfl hl hw
  obtain ⟨_, _, _, _, _, _, h5, _⟩ := loop_ok B he h hl hw
  exact ⟨r, w', h, h5.prefix⟩

/-- After a step that has ended. -/
theorem loop_after_step (B : Behaves bo Fam lo hi ntokens) (he : EnvOk env) {ts : TokenSet} {rc : Removals}
    {w w1 : World} {r} (hl : LoopSet Fam ntokens ts) (hw : WorldOk env w)
    (hr : Run env (optimizationStep bo ts ntokens rc) w r w1) :
    ∃ r' w', Loop env bo ntokens ts rc w r' w' ∧ w1.saved <+: w'.saved := by
  obtain ⟨h1, h2, o, rc', h3, h4⟩ := step_run B he hl hw hr
  subst h3
  cases o with
  | none => exact ⟨_, _, .stop hr, List.prefix_refl _⟩
  | some ts' =>
    obtain ⟨hb, hsort⟩ := h4 ts' rfl
    have hl' : LoopSet Fam ntokens ts' := ⟨hb.fam, hb.size⟩
    obtain ⟨r2, w2, hrun2⟩ := wp_total he _ (wp_maybeSave (env := env) (S := Savable Fam ntokens)
      ⟨hl', hsort⟩ (Tokens.Family.usable (B.family hl'.fam)).inRange) h1
    obtain ⟨g1, g2, g3⟩ := save_run B he ⟨hl', hsort⟩ h1 hrun2
    subst g3
    obtain ⟨r3, w3, h5, h6⟩ := loop_total' B he rc' hl' g1
    exact ⟨r3, w3, .again hr hrun2 h5, g2.prefix.trans h6⟩

theorem partLoop_complete (B : Behaves bo Fam lo hi ntokens) (he : EnvOk env) {ts : TokenSet}
    {rc : Removals} {w w' : World} (h : PartLoop env bo ntokens ts rc w w') :
    LoopSet Fam ntokens ts → WorldOk env w →
      ∃ r w'', Loop env bo ntokens ts rc w r w'' ∧ w'.saved <+: w''.saved := by
  induction h with
  | @step ts rc w w' hs =>
    intro hl hw
    obtain ⟨r, w2, k1, k2⟩ := part_complete he hs
      (wp_step (env := env) (S := fun _ => False) B hl.fam hl.size rc) hw
    obtain ⟨r', w3, k3, k4⟩ := loop_after_step B he hl hw k1
    exact ⟨r', w3, k3, k2.trans k4⟩
  | @save ts rc w ts' rc' w1 w' hs hsave =>
    intro hl hw
    obtain ⟨h1, h2, o, rc'', h3, h4⟩ := step_run B he hl hw hs
    cases h3
    obtain ⟨hb, hsort⟩ := h4 ts' rfl
    have hl' : LoopSet Fam ntokens ts' := ⟨hb.fam, hb.size⟩
    obtain ⟨r2, w2, hrun2, k2⟩ := part_complete he hsave (wp_maybeSave (env := env) (S := Savable Fam ntokens)
      ⟨hl', hsort⟩ (Tokens.Family.usable (B.family hl'.fam)).inRange) h1
    obtain ⟨g1, g2, g3⟩ := save_run B he ⟨hl', hsort⟩ h1 hrun2
    subst g3
    obtain ⟨r3, w3, h5, h6⟩ := loop_total' B he rc' hl' g1
    exact ⟨r3, w3, .again hs hrun2 h5, k2.trans h6⟩
  | @again ts rc w ts' rc' w1 w2 w' hs hsave hlp ih =>
    intro hl hw
    obtain ⟨h1, h2, o, rc'', h3, h4⟩ := step_run B he hl hw hs
    cases h3
    obtain ⟨hb, hsort⟩ := h4 ts' rfl
    have hl' : LoopSet Fam ntokens ts' := ⟨hb.fam, hb.size⟩
    obtain ⟨g1, g2, g3⟩ := save_run B he ⟨hl', hsort⟩ h1 hsave
    obtain ⟨r3, w3, h5, h6⟩ := ih hl' g1
    exact ⟨r3, w3, .again hs hsave h5, h6⟩

theorem partImpl_complete (B : Behaves bo Fam lo hi ntokens) (he : EnvOk env) {ts : TokenSet}
    {w w' : World} (hl : LoopSet Fam ntokens ts) (hw : WorldOk env w) (h : PartImpl env bo ntokens ts w w') :
    ∃ r w'', Impl env bo ntokens ts w r w'' ∧ w'.saved <+: w''.saved := by
  have hwp : (getStats ts).wp env (Savable Fam ntokens) (fun r => ∃ st, r = .ok st) :=
    ⟨B.family hl.fam, fun st _ => ⟨_, rfl⟩⟩
  have fin : ∀ {ts'' : TokenSet}, LoopSet Fam ntokens ts'' →
      (finish ts'').wp env (Savable Fam ntokens) (fun _ => True) := by
    intro ts'' b1
    obtain ⟨ts3, hs⟩ := (sort_ok_iff ts'').2 (Tokens.Family.usable (B.family b1.fam)).inRange
    have hF3 : Family ts3 := sort_family (B.family b1.fam) hs
    unfold finish
    refine wp_lift hs ?_
    exact ⟨hF3, fun st hst => trivial⟩
  have tail : ∀ {st : TokenStats} {w1 : World} {r2 : R TokenSet} {w2 : World},
      Run env (getStats ts) w (.ok st) w1 → Loop env bo ntokens ts (fun _ => 0) w1 r2 w2 →
      ∃ r w'', Impl env bo ntokens ts w r w'' ∧ w2.saved <+: w''.saved := by
    intro st w1 r2 w2 h1 h2
    obtain ⟨_, a1, _⟩ := wp_sound he h1 hwp hw
    obtain ⟨ts'', e, b1, b2, b3, b4, b5, _⟩ := loop_ok B he h2 hl a1
    subst e
    obtain ⟨r3, w3, h3⟩ := wp_total he _ (fin b1) b4
    exact ⟨r3, w3, .done h1 h2 h3, (wp_sound he h3 (fin b1) b4).2.2.prefix⟩
  cases h with
  | first h1 =>
    obtain ⟨r1, w1, k1, k2⟩ := part_complete he h1 hwp hw
    obtain ⟨⟨st, rfl⟩, a1, _⟩ := wp_sound he k1 hwp hw
    obtain ⟨r2, w2, h2, h3⟩ := loop_total' B he (fun _ => 0) hl a1
    obtain ⟨r, w3, g1, g2⟩ := tail k1 h2
    exact ⟨r, w3, g1, k2.trans (h3.trans g2)⟩
  | loop h1 h2 =>
    obtain ⟨_, a1, _⟩ := wp_sound he h1 hwp hw
    obtain ⟨r2, w2, k1, k2⟩ := partLoop_complete B he h2 hl a1
    obtain ⟨r, w3, g1, g2⟩ := tail h1 k1
    exact ⟨r, w3, g1, k2.trans g2⟩
  | finish h1 h2 h3 =>
    obtain ⟨_, a1, _⟩ := wp_sound he h1 hwp hw
    obtain ⟨ts'', e, b1, b2, b3, b4, b5, _⟩ := loop_ok B he h2 hl a1
    have e' := Except.ok.inj e
    subst e'
    obtain ⟨r3, w3, k1, k2⟩ := part_complete he h3 (fin b1) b4
    exact ⟨r3, w3, .done h1 h2 k1, k2⟩

/-- With good input every execution of the optimizer, wherever it is, can go on to a successful end. -/
theorem partTokenset_complete {env : Env} (he : EnvOk env) {ty : TokenType} {p : Processing} {ntokens : Nat}
    {input : Option TokenSet} (hi : GoodInput ty p ntokens input) {w : World}
    (h : PartTokenset env ntokens p ty input w) :
    ∃ r w', OptimizeTokenset env ntokens p ty input r w' ∧ w.saved <+: w'.saved := by
  have key : ∀ {ts : TokenSet} {w1 w2 : World}, Workable ty p ntokens ts → Reached env w1 →
      PartImpl env (optimizerFor ty) ntokens ts w1 w2 →
      ∃ r w3, Impl env (optimizerFor ty) ntokens ts w1 r w3 ∧ w2.saved <+: w3.saved := by
    intro ts w1 w2 hw hr hp
    obtain ⟨Fam, lo, hi', B, hl, _⟩ := workable_behaves hw
    exact partImpl_complete B he hl (reached_ok hr) hp
  have start : ∀ {ts : TokenSet} {w1 : World}, Workable ty p ntokens ts → Reached env w1 →
      ∃ r w3, Impl env (optimizerFor ty) ntokens ts w1 r w3 ∧ w1.saved <+: w3.saved :=
    fun hw hr => key hw hr (.first .here)
  cases input with
  | none =>
    cases h with
    | start h1 =>
      obtain ⟨r, w1, k1, k2⟩ := part_complete (S := fun _ => False) he h1 (start_wp ty p ntokens hi)
        (reached_ok (reached_new env []))
      obtain ⟨ts, rfl, hg, hr, hs⟩ := start_run he hi k1
      obtain ⟨r', w2, k3, k4⟩ := start hg.work hr
      exact ⟨r', w2, .run k1 k3, k2.trans k4⟩
    | impl h1 h2 =>
      obtain ⟨ts, e, hg, hr, hs⟩ := start_run he hi h1
      have := Except.ok.inj e
      subst this
      obtain ⟨r', w2, k3, k4⟩ := key hg.work hr h2
      exact ⟨r', w2, .run h1 k3, k4⟩
  | some ts0 =>
    cases h with
    | start h1 =>
      have h1' : w = ⟨fun _ => none, []⟩ := by
        unfold startSet at h1
        cases h1
        rfl
      subst h1'
      obtain ⟨r', w2, k3, k4⟩ := start hi (reached_new env [])
      exact ⟨r', w2, .run .pure k3, k4⟩
    | impl h1 h2 =>
      cases h1
      obtain ⟨r', w2, k3, k4⟩ := key hi (reached_new env []) h2
      exact ⟨r', w2, .run .pure k3, k4⟩

end Optimize

namespace Disk

/-! ### What they have written -/

theorem part_named {env : Env} {α : Type} {p : Prog α} {w w' : World}
    (h : Part env p w w') : AllNamed w → AllNamed w' := by
  induction h with
  | here => exact id
  | stats _ _ ih => exact fun h => ih h
  | pairs _ _ ih => exact fun h => ih h
  | sortUnstable _ _ _ ih => exact ih
  | clock _ _ ih => exact ih
  | save hf _ ih =>
    intro h
    refine ih ?_
    intro f hfm
    rcases List.mem_append.1 hfm with h1 | h1
    · exact h f h1
    · rw [List.mem_singleton] at h1
      subst h1
      exact savedFile_named hf

theorem partLoop_named {env : Env} {bo : OptimizeBytes.BytesOptimizer} {n : Nat} {ts : TokenSet} {rc : Removals}
    {w w' : World} (h : PartLoop env bo n ts rc w w') : AllNamed w → AllNamed w' := by
  induction h with
  | step hs => exact part_named hs
  | save hs hsave => exact fun h => part_named hsave (run_named hs h)
  | again hs hsave _ ih => exact fun h => ih (run_named hsave (run_named hs h))

theorem partTokenset_named {env : Env} {n : Nat} {p : Processing} {ty : TokenType} {i : Option TokenSet}
    {w : World} (h : PartTokenset env n p ty i w) : AllNamed w := by
  have h0 : AllNamed ⟨fun _ => none, []⟩ := fun f hf => by simp at hf
  cases h with
  | start h1 => exact part_named h1 h0
  | impl h1 h2 =>
    cases h2 with
    | first g1 => exact part_named g1 (run_named h1 h0)
    | loop g1 g2 => exact partLoop_named g2 (run_named g1 (run_named h1 h0))
    | finish g1 g2 g3 => exact part_named g3 (loop_named g2 (run_named g1 (run_named h1 h0)))

theorem partOptimized_named {m : Machine} {data : Bytes} {ntokens : Nat} {p : Processing} {ty : TokenType}
    {rawSize : Nat} {input : Option TokenSet} {minSize : Option Nat}
    {saved : List (Text × Text)} (h : PartOptimized m data ntokens p ty rawSize input minSize saved) :
    ∀ f ∈ saved, Named f := by
  cases h with
  | increasing h =>
    induction h with
    | head => simp
    | optimize _ _ _ ho => exact partTokenset_named ho
    | after _ _ _ ho => exact tokenset_named ho
    | again _ _ _ ho _ _ _ ih =>
      intro f hf
      rcases List.mem_append.1 hf with h1 | h1
      · exact tokenset_named ho f h1
      · exact ih f h1
  | memory _ _ h => exact partTokenset_named h
  | file _ _ h => exact partTokenset_named h

/-- The saved files are files of valid sets. -/
def AllValid (ty : TokenType) (p : Processing) (ntokens : Nat) (saved : List (Text × Text)) : Prop :=
  ∀ f ∈ saved, ∃ ts, ValidSet ty p ntokens ts ∧ savedFile ts = .ok f

theorem partTokenset_good {env : Env} (he : EnvOk env) {ty : TokenType} {p : Processing} {ntokens : Nat}
    {input : Option TokenSet} (hi : GoodInput ty p ntokens input) {w : World}
    (h : PartTokenset env ntokens p ty input w) : AllValid ty p ntokens w.saved := by
  obtain ⟨r, w', h1, h2⟩ := partTokenset_complete he hi h
  exact fun f hf => (tokenset_good he hi h1).saved f (h2.subset hf)

theorem partIncreasing_good {m : Machine} (hm : MachineOk m) {file : Bytes} {ntokens : Nat} {p : Processing}
    {ty : TokenType} {n : Option Nat} {size : Nat} {ts : Option TokenSet}
    {saved : List (Text × Text)} (h : PartIncreasing m file ntokens p ty n size ts saved) :
    GoodInput ty p ntokens ts → AllValid ty p ntokens saved := by
  induction h with
  | head => exact fun _ f hf => by simp at hf
  | @optimize size ts env w h hs hb ho =>
    intro hi
    obtain ⟨env', h1, h2, _⟩ := sampleEnv_ok hm file size n
    have := Except.ok.inj (h1.symm.trans hs)
    subst this
    exact partTokenset_good h2 hi ho
  | @after size ts env st w h hs hb ho =>
    intro hi
    obtain ⟨env', h1, h2, _⟩ := sampleEnv_ok hm file size n
    have := Except.ok.inj (h1.symm.trans hs)
    subst this
    exact (tokenset_good h2 hi ho).saved
  | @again size ts env st w st' saved h hs hb ho hf hstop hr ih =>
    intro hi
    obtain ⟨env', h1, h2, _⟩ := sampleEnv_ok hm file size n
    have := Except.ok.inj (h1.symm.trans hs)
    subst this
    obtain ⟨st1, e1, hres, hw⟩ := optimize_good h2 hi ho
    have := Except.ok.inj e1
    subst this
    intro f hf
    rcases List.mem_append.1 hf with h | h
    · exact saved_of_result hres f h
    · exact ih hw f h

theorem partOptimized_good {m : Machine} (hm : MachineOk m) {data : Bytes} {ntokens : Nat} {p : Processing}
    {ty : TokenType} {rawSize : Nat} {input : Option TokenSet} (hi : GoodInput ty p ntokens input)
    {minSize : Option Nat} {saved : List (Text × Text)}
    (h : PartOptimized m data ntokens p ty rawSize input minSize saved) : AllValid ty p ntokens saved := by
  cases h with
  | increasing h => exact partIncreasing_good hm h hi
  | memory _ he h =>
    obtain ⟨env, h1, h2, _⟩ := memoryEnv_ok hm data (some rawSize)
    have := Except.ok.inj (h1.symm.trans he)
    subst this
    exact partTokenset_good h2 hi h
  | file _ he h =>
    exact partTokenset_good ⟨hm.threads, .inr (fileSampler_facts he).2.1⟩ hi h

/-- All writes of a command so far are where it may write. -/
theorem running_where {m : Machine} {d : Files} {cmd : Command} {ws : List (Text × Bytes)}
    (h : Running m d cmd ws) : ∀ w ∈ ws, MayWrite cmd w.1 := by
  cases h with
  | nothing => simp
  | optimize hr hp hi hd ht ho =>
    intro w hw
    exact inDir_named (partOptimized_named ho) w (attempt_sub rfl w hw)
  | ended h => exact exec_where h

end Disk
end Tokens
