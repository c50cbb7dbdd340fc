import Verif.Proofs.MachineOpt2
import Verif.Props.Machine

/-! The arithmetic of the optimizer does not overflow: whole runs. -/

set_option linter.unusedSimpArgs false
set_option linter.unusedVariables false

namespace Tokens
open Spec TokenSet Batch OptimizeBytes Optimize

namespace MachineOpt

variable {A : Arith} {env : Env}

/-- One of the two builds. -/
structure Build (A : Arith) : Prop where
  exact : Exact A
  add : A.add = Machine.checkedAdd ∨ A.add = Machine.wrappingAdd

theorem build_of (h : A = checked ∨ A = wrapping) : Build A := by
  rcases h with rfl | rfl
  · exact ⟨checked_exact, .inl rfl⟩
  · exact ⟨wrapping_exact, .inr rfl⟩

/-! ### The cache -/

theorem data_fits (hd : SmallData env) : 256 * ((env.sampler.samples.map List.length).sum + 1) < 2 ^ 64 := by
  unfold SmallData at hd
  omega

theorem sync_same (hB : Build A) (hd : SmallData env) {ts : TokenSet} (hf : Family ts) :
    Machine.tokenizeFileSync A.add ts env.sampler.samples env.initialSize =
      Batch.tokenizeFileSync ts env.sampler.samples env.initialSize :=
  Props.C51_sync_no_overflow A.add hB.add ts (Tokens.Family.usable hf).inRange 256 (by decide) (family_short hf)
    _ (data_fits hd) _

theorem tokenize_same (hB : Build A) (he : EnvOk env) (hd : SmallData env) {ts : TokenSet} (hf : Family ts)
    (st : TokenStats) : Machine.TokenizeFile A.add ts env.sampler env.initialSize env.nthreads st ↔
      Batch.TokenizeFile ts env.sampler env.initialSize env.nthreads st := by
  rcases he.2 with h | h
  · have hsz : env.sampler.totalSize < 1 <<< 25 := by simpa using h
    constructor
    · intro g
      cases g with
      | sync _ hs => exact .sync hsz (by rw [← sync_same hB hd hf]; exact hs)
      | par hn => exact absurd hsz hn
    · intro g
      cases g with
      | sync _ hs => exact .sync hsz (by rw [sync_same hB hd hf]; exact hs)
      | par hn => exact absurd hsz hn
  · exact Props.C51_tokenize_file A.add hB.add ts (Tokens.Family.usable hf).inRange 256 (by decide)
      (family_short hf) _ h (data_fits hd) _ _ _

theorem tokenize_fails_not (hB : Build A) (he : EnvOk env) (hd : SmallData env) {ts : TokenSet} (hf : Family ts) :
    ¬ TokenizeFails A ts env := by
  have hu := Tokens.Family.usable hf
  intro h
  cases h with
  | sync hz hs =>
    rw [sync_same hB hd hf] at hs
    exact Optimize.tokenize_fails_not he hu.accepted hu.inRange (.sync hz hs)
  | new hz hn => exact Optimize.tokenize_fails_not he hu.accepted hu.inRange (.new hz hn)
  | stuck hz hn hs hst hret =>
    rcases he.2 with g | g
    · exact hz (by simpa using g)
    · rename_i tk s
      obtain ⟨hk, ht⟩ := FragmentTokenizer.ok_of_new hn
      obtain ⟨d, hw⟩ := exists_work hn hu.inRange
      have hs' := (Machine.steps_same hB.exact.add hw hk ht hu.inRange (K := 256) (by decide) (family_short hf) g
        (data_fits hd)).1 hs
      refine Optimize.tokenize_fails_not he hu.accepted hu.inRange (.stuck hz hn hs' ?_ hret)
      rintro ⟨s', hs1⟩
      have hi0 := inv_init (ts := ts) (d := d) env.sampler.samples env.initialSize env.nthreads
      exact hst ⟨s', (Machine.step_same hB.exact.add hw hk ht hu.inRange (K := 256) (by decide) (family_short hf)
        (data_fits hd) (inv_steps hw hi0 hs') (clean_steps hw hi0 (clean_init g) hs')).2 hs1⟩

theorem getStats_same (hB : Build A) (he : EnvOk env) (hd : SmallData env) {ts : TokenSet} (hf : Family ts)
    (c c' : Cache) (st : TokenStats) : GetStats A env c ts c' st ↔
      Batch.GetStats env.sampler env.initialSize env.nthreads c ts c' st := by
  constructor
  · intro h
    cases h with
    | hit hs hk hc => exact .hit hs hk hc
    | miss hs hk hc ht => exact .miss hs hk hc ((tokenize_same hB he hd (sort_family hf hs) _).1 ht)
  · intro h
    cases h with
    | hit hs hk hc => exact .hit hs hk hc
    | miss hs hk hc ht => exact .miss hs hk hc ((tokenize_same hB he hd (sort_family hf hs) _).2 ht)

theorem getPairs_same (hB : Build A) (he : EnvOk env) (hd : SmallData env) {ts : TokenSet} (hf : Family ts)
    (c c' : Cache) (st : TokenStats) : GetStatsWithPairs A env c ts c' st ↔
      Batch.GetStatsWithPairs env.sampler env.initialSize env.nthreads c ts c' st := by
  constructor
  · intro h
    cases h with
    | mk hs ht hk => exact .mk hs ((tokenize_same hB he hd (sort_family hf hs) _).1 ht) hk
  · intro h
    cases h with
    | mk hs ht hk => exact .mk hs ((tokenize_same hB he hd (sort_family hf hs) _).2 ht) hk

theorem stats_fails_not (hB : Build A) (he : EnvOk env) (hd : SmallData env) {c : Cache} {ts : TokenSet}
    (hf : Family ts) : ¬ StatsFails A env c ts := by
  intro h
  cases h with
  | sort h => exact Optimize.stats_fails_not (c := c) he hf (.sort h)
  | key hs hk => exact Optimize.stats_fails_not (c := c) he hf (.key hs hk)
  | tokenize hs hk hc ht => exact tokenize_fails_not hB he hd (sort_family hf hs) ht

theorem pairs_fails_not (hB : Build A) (he : EnvOk env) (hd : SmallData env) {ts : TokenSet}
    (hf : Family ts) : ¬ PairsFails A env ts := by
  intro h
  cases h with
  | sort h => exact Optimize.pairs_fails_not he hf (.sort h)
  | key hs hk => exact Optimize.pairs_fails_not he hf (.key hs hk)
  | tokenize hs ht => exact tokenize_fails_not hB he hd (sort_family hf hs) ht

/-! ### Programs that agree -/

/-- Two programs that do the same, as long as the cache is asked for sets of the families and gives fresh
statistics. -/
inductive Agree (env : Env) {α : Type} : Prog α → Prog α → Prop where
  | pure (a : α) : Agree env (.pure a) (.pure a)
  | fail (e : Err) : Agree env (.fail e) (.fail e)
  | stats {ts k k'} (h : Family ts → ∀ st, Fresh env ts st →
      Agree env (k st.cloneWithoutPairs) (k' st.cloneWithoutPairs)) : Agree env (.stats ts k) (.stats ts k')
  | pairs {ts k k'} (h : Family ts → ∀ st, Fresh env ts st → Agree env (k st) (k' st)) :
      Agree env (.pairs ts k) (.pairs ts k')
  | sortUnstable {key l k k'} (h : ∀ l', Agree env (k l') (k' l')) :
      Agree env (.sortUnstable key l k) (.sortUnstable key l k')
  | clock {k k'} (h : ∀ b, Agree env (k b) (k' b)) : Agree env (.clock k) (.clock k')
  | save {ts k k'} (h : Agree env k k') : Agree env (.save ts k) (.save ts k')

theorem Agree.refl {α : Type} (p : Prog α) : Agree env p p := by
  induction p with
  | pure a => exact .pure a
  | fail e => exact .fail e
  | stats ts k ih => exact .stats (fun _ st _ => ih _)
  | pairs ts k ih => exact .pairs (fun _ st _ => ih _)
  | sortUnstable key l k ih => exact .sortUnstable (fun l' => ih _)
  | clock k ih => exact .clock (fun b => ih _)
  | save ts k ih => exact .save ih

theorem Agree.bind' {α β : Type} {p q : Prog α} (h : Agree env p q) {f g : α → Prog β}
    (hfg : ∀ a, Agree env (f a) (g a)) : Agree env (p.bind f) (q.bind g) := by
  induction h with
  | pure a => exact hfg a
  | fail e => exact .fail e
  | stats _ ih => exact .stats (fun hf st hst => ih hf st hst)
  | pairs _ ih => exact .pairs (fun hf st hst => ih hf st hst)
  | sortUnstable _ ih => exact .sortUnstable (fun l' => ih l')
  | clock _ ih => exact .clock (fun b => ih b)
  | save _ ih => exact .save ih

theorem Agree.bind {α β : Type} {p q : Prog α} (h : Agree env p q) {f g : α → Prog β}
    (hfg : ∀ a, Agree env (f a) (g a)) : Agree env (p >>= f) (q >>= g) := Agree.bind' h hfg

theorem Agree.lift {α β : Type} {x y : R α} (h : x = y) {f g : α → Prog β}
    (hfg : ∀ a, y = .ok a → Agree env (f a) (g a)) : Agree env (Prog.lift x >>= f) (Prog.lift y >>= g) := by
  subst h
  cases x with
  | ok a => exact hfg a rfl
  | error e => exact .fail e

theorem Agree.getStats {β : Type} {ts : TokenSet} {f g : TokenStats → Prog β}
    (h : Family ts → ∀ st, Fresh env ts st → Agree env (f st.cloneWithoutPairs) (g st.cloneWithoutPairs)) :
    Agree env (Optimize.getStats ts >>= f) (Optimize.getStats ts >>= g) := .stats h

theorem Agree.getPairs {β : Type} {ts : TokenSet} {f g : TokenStats → Prog β}
    (h : Family ts → ∀ st, Fresh env ts st → Agree env (f st) (g st)) :
    Agree env (Optimize.getStatsWithPairs ts >>= f) (Optimize.getStatsWithPairs ts >>= g) := .pairs h

/-- Programs that agree have the same runs. -/
theorem transfer (hB : Build A) (he : EnvOk env) (hd : SmallData env) {S : TokenSet → Prop} {α : Type}
    {q p : Prog α} (h : Agree env q p) : ∀ {Q : R α → Prop} {w w' : World} {r : R α},
    p.wp env S Q → WorldOk env w → (Run A env q w r w' ↔ Optimize.Run env p w r w') := by
  induction h with
  | pure a =>
    intro Q w w' r _ _
    constructor <;> (intro h; cases h; exact .pure)
  | fail e =>
    intro Q w w' r _ _
    constructor <;> (intro h; cases h; exact .fail)
  | stats _ ih =>
    intro Q w w' r hwp hw
    constructor
    · intro h
      cases h with
      | stats hg hk =>
        have hg' := (getStats_same hB he hd hwp.1 _ _ _).1 hg
        obtain ⟨h1, full, h2, h3⟩ := stats_ok he hwp.1 hw hg'
        subst h3
        exact .stats hg' ((ih hwp.1 full h2 (hwp.2 full h2) (show WorldOk env ⟨_, w.saved⟩ from h1)).1 hk)
      | statsFail hf => exact absurd hf (stats_fails_not hB he hd hwp.1)
    · intro h
      cases h with
      | stats hg hk =>
        obtain ⟨h1, full, h2, h3⟩ := stats_ok he hwp.1 hw hg
        subst h3
        exact .stats ((getStats_same hB he hd hwp.1 _ _ _).2 hg) ((ih hwp.1 full h2 (hwp.2 full h2) (show WorldOk env ⟨_, w.saved⟩ from h1)).2 hk)
      | statsFail hf => exact absurd hf (Optimize.stats_fails_not he hwp.1)
  | pairs _ ih =>
    intro Q w w' r hwp hw
    constructor
    · intro h
      cases h with
      | pairs hg hk =>
        have hg' := (getPairs_same hB he hd hwp.1 _ _ _).1 hg
        obtain ⟨h1, h2⟩ := pairs_ok he hwp.1 hw hg'
        exact .pairs hg' ((ih hwp.1 _ h2 (hwp.2 _ h2) (show WorldOk env ⟨_, w.saved⟩ from h1)).1 hk)
      | pairsFail hf => exact absurd hf (pairs_fails_not hB he hd hwp.1)
    · intro h
      cases h with
      | pairs hg hk =>
        obtain ⟨h1, h2⟩ := pairs_ok he hwp.1 hw hg
        exact .pairs ((getPairs_same hB he hd hwp.1 _ _ _).2 hg) ((ih hwp.1 _ h2 (hwp.2 _ h2) (show WorldOk env ⟨_, w.saved⟩ from h1)).2 hk)
      | pairsFail hf => exact absurd hf (Optimize.pairs_fails_not he hwp.1)
  | sortUnstable _ ih =>
    intro Q w w' r hwp hw
    constructor
    · intro h
      cases h with
      | sortUnstable hp hs hk => exact .sortUnstable hp hs ((ih _ (hwp _ hp hs) hw).1 hk)
    · intro h
      cases h with
      | sortUnstable hp hs hk => exact .sortUnstable hp hs ((ih _ (hwp _ hp hs) hw).2 hk)
  | clock _ ih =>
    intro Q w w' r hwp hw
    constructor
    · intro h
      cases h with
      | clock b hk => exact .clock b ((ih b (hwp b) hw).1 hk)
    · intro h
      cases h with
      | clock b hk => exact .clock b ((ih b (hwp b) hw).2 hk)
  | save _ ih =>
    intro Q w w' r hwp hw
    constructor
    · intro h
      cases h with
      | save hf hk => exact .save hf ((ih (w := ⟨w.cache, w.saved ++ [_]⟩) hwp.2.2 hw).1 hk)
      | saveFail hf => exact .saveFail hf
    · intro h
      cases h with
      | save hf hk => exact .save hf ((ih (w := ⟨w.cache, w.saved ++ [_]⟩) hwp.2.2 hw).2 hk)
      | saveFail hf => exact .saveFail hf

/-! ### The functions of src/optimize.rs agree -/

theorem small_clone {st : TokenStats} (h : Small st) : Small st.cloneWithoutPairs :=
  ⟨h.sums, fun c hc => by cases hc⟩

theorem fit_clone {st : TokenStats} (h : CountsFit st) : CountsFit st.cloneWithoutPairs := ⟨h.tokens, h.seqs⟩

variable {bo' bo : BytesOptimizer}

theorem agree_addToken (hA : Exact A) (hd : SmallData env) (hb : SameBo bo' bo) (ts : TokenSet) :
    Agree env (addToken A bo' ts) (Optimize.addToken bo ts) := by
  unfold addToken Optimize.addToken
  refine Agree.getPairs ?_
  intro hf st hst
  obtain ⟨h1, h2, h3, _⟩ := fresh_small hd hf hst
  refine Agree.lift (addByte_same hA hb h1 h2 h3) ?_
  intro a _
  exact Agree.lift (addTokenBpe_same hA st h1.pairs) (fun b _ => .refl _)

theorem agree_removeLoop (hA : Exact A) (hd : SmallData env) (hb : SameBo bo' bo) (ts : TokenSet)
    (ntokens total : Nat) (l : List Bytes) : ∀ rc,
    Agree env (removeLoop A bo' ts ntokens total l rc) (Optimize.removeLoop bo ts ntokens total l rc) := by
  induction l with
  | nil => intro rc; exact .refl _
  | cons s rest ih =>
    intro rc
    unfold removeLoop Optimize.removeLoop
    refine Agree.lift rfl (fun idx _ => Agree.lift rfl (fun ts1 _ => Agree.lift rfl (fun m _ =>
      Agree.lift rfl (fun _ _ => Agree.bind (agree_addToken hA hd hb ts1) (fun o => ?_)))))
    cases o with
    | none => exact ih _
    | some ts2 =>
      refine Agree.getStats ?_
      intro _ st _
      split
      · exact .refl _
      · exact ih _

theorem agree_tradeByte (hA : Exact A) (hd : SmallData env) (hb : SameBo bo' bo) (ts : TokenSet)
    (ntokens : Nat) {st : TokenStats} (h1 : Small st) (h2 : Family st.tokenSet) (h3 : CountsFit st) :
    Agree env (tradeByte A bo' ts ntokens st) (Optimize.tradeByte bo ts ntokens st) := by
  unfold tradeByte Optimize.tradeByte
  refine Agree.lift rfl (fun n _ => ?_)
  split
  · refine Agree.lift rfl (fun n' _ => Agree.lift (hb st n' h1 h2 h3).1 (fun ts1 _ => Agree.lift rfl (fun m _ =>
      Agree.lift rfl (fun _ _ => Agree.getPairs (fun hf st1 hst1 => ?_)))))
    refine Agree.lift (addTokenBpe_same hA st1 (fresh_small hd hf hst1).1.pairs) (fun o _ => .refl _)
  · exact .refl _

theorem agree_removeAddToken (hA : Exact A) (hd : SmallData env) (hb : SameBo bo' bo) (ts : TokenSet)
    (ntokens : Nat) (rc : Removals) :
    Agree env (removeAddToken A bo' ts ntokens rc) (Optimize.removeAddToken bo ts ntokens rc) := by
  unfold removeAddToken Optimize.removeAddToken
  split
  · exact Agree.bind (agree_addToken hA hd hb ts) (fun o => .refl _)
  · refine Agree.lift rfl (fun _ _ => Agree.getStats (fun hf st hst => ?_))
    obtain ⟨h1, h2, h3, _⟩ := fresh_small hd hf hst
    refine Agree.bind (agree_tradeByte hA hd hb ts ntokens (small_clone h1) h2 (fit_clone h3)) (fun o => ?_)
    cases o with
    | some st' => exact .refl _
    | none => exact Agree.bind (.refl _) (fun l => agree_removeLoop hA hd hb ts ntokens _ l rc)

theorem agree_step (hA : Exact A) (hd : SmallData env) (hb : SameBo bo' bo) (ts : TokenSet)
    (ntokens : Nat) (rc : Removals) :
    Agree env (optimizationStep A bo' ts ntokens rc) (Optimize.optimizationStep bo ts ntokens rc) := by
  unfold optimizationStep Optimize.optimizationStep
  refine Agree.getStats (fun hf st hst => ?_)
  obtain ⟨h1, h2, h3, _⟩ := fresh_small hd hf hst
  refine Agree.lift rfl (fun n _ => Agree.lift (hb _ n (small_clone h1) h2 (fit_clone h3)).1 (fun ts' _ =>
    Agree.getStats (fun _ st' _ => ?_)))
  split
  · exact .refl _
  · exact Agree.bind (agree_removeAddToken hA hd hb ts ntokens rc) (fun o => .refl _)

theorem agree_start (hA : Exact A) (hd : SmallData env) (ntokens : Nat) (p : Processing) (ty : TokenType)
    (pre : Option TokenSet) : Agree env (startSet A ntokens p ty pre) (Optimize.startSet ntokens p ty pre) := by
  cases pre with
  | some ts => exact .refl _
  | none =>
    cases ty with
    | bytesHuff =>
      refine Agree.lift rfl (fun ts _ => Agree.getStats (fun hf st hst => ?_))
      obtain ⟨h1, h2, h3, _⟩ := fresh_small hd hf hst
      rw [(sameBo_huff hA _ ntokens (small_clone h1) h2 (fit_clone h3)).1]
      exact .refl _
    | _ => exact .refl _

/-! ### The loop and the whole -/

variable {Fam : TokenSet → Prop} {lo hi ntokens : Nat}

theorem step_iff (hB : Build A) (he : EnvOk env) (hd : SmallData env) (hb : SameBo bo' bo)
    (B : Behaves bo Fam lo hi ntokens) {ts : TokenSet} (hl : LoopSet Fam ntokens ts) (rc : Removals)
    {w w' : World} (hw : WorldOk env w) {r} :
    Run A env (optimizationStep A bo' ts ntokens rc) w r w' ↔
      Optimize.Run env (Optimize.optimizationStep bo ts ntokens rc) w r w' :=
  transfer hB he hd (agree_step hB.exact hd hb ts ntokens rc)
    (wp_step (env := env) (S := fun _ => False) B hl.fam hl.size rc) hw

theorem save_iff (hB : Build A) (he : EnvOk env) (hd : SmallData env) (B : Behaves bo Fam lo hi ntokens)
    {ts : TokenSet} (hl : Savable Fam ntokens ts) {w w' : World} (hw : WorldOk env w) {r} :
    Run A env (maybeSave ts) w r w' ↔ Optimize.Run env (maybeSave ts) w r w' :=
  transfer hB he hd (.refl _) (wp_maybeSave (env := env) (S := Savable Fam ntokens) hl
    (Tokens.Family.usable (B.family hl.1.fam)).inRange) hw

theorem loop_iff (hB : Build A) (he : EnvOk env) (hd : SmallData env) (hb : SameBo bo' bo)
    (B : Behaves bo Fam lo hi ntokens) {ts : TokenSet} {rc : Removals} {w w' : World} {r : R TokenSet}
    (hl : LoopSet Fam ntokens ts) (hw : WorldOk env w) :
    Loop A env bo' ntokens ts rc w r w' ↔ Optimize.Loop env bo ntokens ts rc w r w' := by
  constructor
  · intro h
    induction h with
    | stop hs => exact .stop ((step_iff hB he hd hb B hl _ hw).1 hs)
    | fail hs => exact .fail ((step_iff hB he hd hb B hl _ hw).1 hs)
    | again hs hsave _ ih =>
      have hs' := (step_iff hB he hd hb B hl _ hw).1 hs
      obtain ⟨h1, h2, o, rc', h3, h4⟩ := step_run B he hl hw hs'
      cases h3
      obtain ⟨hbt, hsort⟩ := h4 _ rfl
      have hl' : LoopSet Fam ntokens _ := ⟨hbt.fam, hbt.size⟩
      have hsave' := (save_iff hB he hd B ⟨hl', hsort⟩ h1).1 hsave
      exact .again hs' hsave' (ih hl' (save_run B he ⟨hl', hsort⟩ h1 hsave').1)
    | saveFail hs hsave =>
      have hs' := (step_iff hB he hd hb B hl _ hw).1 hs
      obtain ⟨h1, h2, o, rc', h3, h4⟩ := step_run B he hl hw hs'
      cases h3
      obtain ⟨hbt, hsort⟩ := h4 _ rfl
      exact .saveFail hs' ((save_iff hB he hd B ⟨⟨hbt.fam, hbt.size⟩, hsort⟩ h1).1 hsave)
  · intro h
    induction h with
    | stop hs => exact .stop ((step_iff hB he hd hb B hl _ hw).2 hs)
    | fail hs => exact .fail ((step_iff hB he hd hb B hl _ hw).2 hs)
    | again hs hsave _ ih =>
      have hs' := (step_iff hB he hd hb B hl _ hw).2 hs
      obtain ⟨h1, h2, o, rc', h3, h4⟩ := step_run B he hl hw hs
      cases h3
      obtain ⟨hbt, hsort⟩ := h4 _ rfl
      have hl' : LoopSet Fam ntokens _ := ⟨hbt.fam, hbt.size⟩
      exact .again hs' ((save_iff hB he hd B ⟨hl', hsort⟩ h1).2 hsave)
        (ih hl' (save_run B he ⟨hl', hsort⟩ h1 hsave).1)
    | saveFail hs hsave =>
      have hs' := (step_iff hB he hd hb B hl _ hw).2 hs
      obtain ⟨h1, h2, o, rc', h3, h4⟩ := step_run B he hl hw hs
      cases h3
      obtain ⟨hbt, hsort⟩ := h4 _ rfl
      exact .saveFail hs' ((save_iff hB he hd B ⟨⟨hbt.fam, hbt.size⟩, hsort⟩ h1).2 hsave)

theorem stats_iff (hB : Build A) (he : EnvOk env) (hd : SmallData env) {ts : TokenSet} (hf : Family ts)
    {w w' : World} (hw : WorldOk env w) {r} :
    Run A env (Optimize.getStats ts) w r w' ↔ Optimize.Run env (Optimize.getStats ts) w r w' :=
  transfer hB he hd (.refl _) (S := fun _ => False) (Q := fun _ => True) ⟨hf, fun st _ => trivial⟩ hw

theorem stats_world (he : EnvOk env) {ts : TokenSet} (hf : Family ts)
    {w w' : World} (hw : WorldOk env w) {r} (h : Optimize.Run env (Optimize.getStats ts) w r w') :
    WorldOk env w' :=
  (wp_sound he h (S := fun _ => False) (Q := fun _ => True) ⟨hf, fun st _ => trivial⟩ hw).2.1

theorem finish_iff (hB : Build A) (he : EnvOk env) (hd : SmallData env) {ts : TokenSet} (hf : Family ts)
    {w w' : World} (hw : WorldOk env w) {r} :
    Run A env (finish ts) w r w' ↔ Optimize.Run env (finish ts) w r w' := by
  obtain ⟨ts', h1, h2, _⟩ := family_sort hf
  refine transfer hB he hd (.refl _) (S := fun _ => False) (Q := fun _ => True) ?_ hw
  unfold finish
  refine wp_lift h1 ?_
  exact ⟨h2, fun st hst => trivial⟩

theorem impl_iff (hB : Build A) (he : EnvOk env) (hd : SmallData env) (hb : SameBo bo' bo)
    (B : Behaves bo Fam lo hi ntokens) {ts : TokenSet} {w w' : World} {r : R TokenStats}
    (hl : LoopSet Fam ntokens ts) (hw : WorldOk env w) :
    Impl A env bo' ntokens ts w r w' ↔ Optimize.Impl env bo ntokens ts w r w' := by
  have hf := B.family hl.fam
  constructor
  · intro h
    cases h with
    | done h1 h2 h3 =>
      have g1 := (stats_iff hB he hd hf hw).1 h1
      have w1 := stats_world he hf hw g1
      have g2 := (loop_iff hB he hd hb B hl w1).1 h2
      obtain ⟨ts', e, hl', _, _, w2, _⟩ := loop_ok B he g2 hl w1
      have e' := Except.ok.inj e
      subst e'
      exact .done g1 g2 ((finish_iff hB he hd (B.family hl'.fam) w2).1 h3)
    | firstFail h1 => exact .firstFail ((stats_iff hB he hd hf hw).1 h1)
    | loopFail h1 h2 =>
      have g1 := (stats_iff hB he hd hf hw).1 h1
      exact .loopFail g1 ((loop_iff hB he hd hb B hl (stats_world he hf hw g1)).1 h2)
  · intro h
    cases h with
    | done h1 h2 h3 =>
      have g1 := (stats_iff hB he hd hf hw).2 h1
      have w1 := stats_world he hf hw h1
      have g2 := (loop_iff hB he hd hb B hl w1).2 h2
      obtain ⟨ts', e, hl', _, _, w2, _⟩ := loop_ok B he h2 hl w1
      have e' := Except.ok.inj e
      subst e'
      exact .done g1 g2 ((finish_iff hB he hd (B.family hl'.fam) w2).2 h3)
    | firstFail h1 => exact .firstFail ((stats_iff hB he hd hf hw).2 h1)
    | loopFail h1 h2 =>
      have g1 := (stats_iff hB he hd hf hw).2 h1
      exact .loopFail g1 ((loop_iff hB he hd hb B hl (stats_world he hf hw h1)).2 h2)

/-- A set on which every step panics. -/
theorem impl_iff_bad (hB : Build A) (he : EnvOk env) (hd : SmallData env) (hb : SameBo bo' bo)
    {ts : TokenSet} {w w' : World} {r : R TokenStats} (hf : Family ts)
    (hbad : ∀ rc, (Optimize.optimizationStep bo ts ntokens rc).wp env (fun _ => False) (fun r => ∃ e, r = .error e))
    (hw : WorldOk env w) :
    Impl A env bo' ntokens ts w r w' ↔ Optimize.Impl env bo ntokens ts w r w' := by
  have hstep : ∀ {rc w w'} {r : R (Option TokenSet × Removals)}, WorldOk env w →
      (Run A env (optimizationStep A bo' ts ntokens rc) w r w' ↔
        Optimize.Run env (Optimize.optimizationStep bo ts ntokens rc) w r w') :=
    fun hw => transfer hB he hd (agree_step hB.exact hd hb ts ntokens _) (hbad _) hw
  have hloop : ∀ {rc w w' r}, WorldOk env w →
      (Loop A env bo' ntokens ts rc w r w' ↔ Optimize.Loop env bo ntokens ts rc w r w') := by
    intro rc w w' r hw
    constructor
    · intro h
      cases h with
      | stop hs =>
        obtain ⟨⟨e, he'⟩, _⟩ := wp_sound he ((hstep hw).1 hs) (hbad _) hw
        cases he'
      | fail hs => exact .fail ((hstep hw).1 hs)
      | again hs =>
        obtain ⟨⟨e, he'⟩, _⟩ := wp_sound he ((hstep hw).1 hs) (hbad _) hw
        cases he'
      | saveFail hs =>
        obtain ⟨⟨e, he'⟩, _⟩ := wp_sound he ((hstep hw).1 hs) (hbad _) hw
        cases he'
    · intro h
      cases h with
      | stop hs =>
        obtain ⟨⟨e, he'⟩, _⟩ := wp_sound he hs (hbad _) hw
        cases he'
      | fail hs => exact .fail ((hstep hw).2 hs)
      | again hs =>
        obtain ⟨⟨e, he'⟩, _⟩ := wp_sound he hs (hbad _) hw
        cases he'
      | saveFail hs =>
        obtain ⟨⟨e, he'⟩, _⟩ := wp_sound he hs (hbad _) hw
        cases he'
  have nofin : ∀ {rc w w' x}, WorldOk env w → ¬ Optimize.Loop env bo ntokens ts rc w (.ok x) w' := by
    intro rc w w' x hw h
    cases h with
    | stop hs =>
      obtain ⟨⟨e, he'⟩, _⟩ := wp_sound he hs (hbad _) hw
      cases he'
    | again hs =>
      obtain ⟨⟨e, he'⟩, _⟩ := wp_sound he hs (hbad _) hw
      cases he'
  constructor
  · intro h
    cases h with
    | done h1 h2 h3 =>
      have g1 := (stats_iff hB he hd hf hw).1 h1
      have w1 := stats_world he hf hw g1
      exact absurd ((hloop w1).1 h2) (nofin w1)
    | firstFail h1 => exact .firstFail ((stats_iff hB he hd hf hw).1 h1)
    | loopFail h1 h2 =>
      have g1 := (stats_iff hB he hd hf hw).1 h1
      exact .loopFail g1 ((hloop (stats_world he hf hw g1)).1 h2)
  · intro h
    cases h with
    | done h1 h2 h3 => exact absurd h2 (nofin (stats_world he hf hw h1))
    | firstFail h1 => exact .firstFail ((stats_iff hB he hd hf hw).2 h1)
    | loopFail h1 h2 =>
      exact .loopFail ((stats_iff hB he hd hf hw).2 h1) ((hloop (stats_world he hf hw h1)).2 h2)

/-- Without a pretrained set, for every size. -/
theorem scratch_iff (hB : Build A) (he : EnvOk env) (hd : SmallData env) (ty : TokenType) (p : Processing)
    (ntokens : Nat) (r : R TokenStats) (w : World) :
    OptimizeTokenset A env ntokens p ty none r w ↔ Optimize.OptimizeTokenset env ntokens p ty none r w := by
  have hw0 : WorldOk env ⟨fun _ => none, []⟩ := reached_ok (reached_new env [])
  have hag := agree_start (env := env) hB.exact hd ntokens p ty none
  have hb := sameBo_for hB.exact ty
  by_cases hn : Admissible ty ntokens
  · have hwp := start_wp (env := env) (S := fun _ => False) ty p ntokens hn
    have hst : ∀ {r w}, Run A env (startSet A ntokens p ty none) ⟨fun _ => none, []⟩ r w ↔
        Optimize.Run env (Optimize.startSet ntokens p ty none) ⟨fun _ => none, []⟩ r w :=
      transfer hB he hd hag hwp hw0
    have himpl : ∀ {ts w r w'}, Optimize.Run env (Optimize.startSet ntokens p ty none) ⟨fun _ => none, []⟩ (.ok ts) w →
        (Impl A env (optimizerFor A ty) ntokens ts w r w' ↔
          Optimize.Impl env (Optimize.optimizerFor ty) ntokens ts w r w') := by
      intro ts w r w' h
      obtain ⟨⟨ts', e, hg⟩, hw, _⟩ := wp_sound he h hwp hw0
      have e' := Except.ok.inj e
      subst e'
      obtain ⟨Fam, lo, hi, B, hl, _⟩ := workable_behaves hg.work
      exact impl_iff hB he hd hb B hl hw
    constructor
    · intro h
      cases h with
      | run h1 h2 => exact .run (hst.1 h1) ((himpl (hst.1 h1)).1 h2)
      | startFail h1 => exact .startFail (hst.1 h1)
    · intro h
      cases h with
      | run h1 h2 => exact .run (hst.2 h1) ((himpl h1).2 h2)
      | startFail h1 => exact .startFail (hst.2 h1)
  · have hwp := start_bad (env := env) (S := fun _ => False) ty p ntokens hn
    have hst : ∀ {r w}, Run A env (startSet A ntokens p ty none) ⟨fun _ => none, []⟩ r w ↔
        Optimize.Run env (Optimize.startSet ntokens p ty none) ⟨fun _ => none, []⟩ r w :=
      transfer hB he hd hag hwp hw0
    have himpl : ∀ {ts w r w'}, Optimize.Run env (Optimize.startSet ntokens p ty none) ⟨fun _ => none, []⟩ (.ok ts) w →
        (Impl A env (optimizerFor A ty) ntokens ts w r w' ↔
          Optimize.Impl env (Optimize.optimizerFor ty) ntokens ts w r w') := by
      intro ts w r w' h
      obtain ⟨hq, hw, _⟩ := wp_sound he h hwp hw0
      rcases hq with ⟨e, he'⟩ | ⟨ts', e, hf, hbad⟩
      · cases he'
      · have e' := Except.ok.inj e
        subst e'
        exact impl_iff_bad hB he hd hb hf hbad hw
    constructor
    · intro h
      cases h with
      | run h1 h2 => exact .run (hst.1 h1) ((himpl (hst.1 h1)).1 h2)
      | startFail h1 => exact .startFail (hst.1 h1)
    · intro h
      cases h with
      | run h1 h2 => exact .run (hst.2 h1) ((himpl h1).2 h2)
      | startFail h1 => exact .startFail (hst.2 h1)

/-- With a pretrained set. -/
theorem pretrained_iff (hB : Build A) (he : EnvOk env) (hd : SmallData env) {ty : TokenType} {p : Processing}
    {ntokens : Nat} {ts : TokenSet} (hwk : Workable ty p ntokens ts) (r : R TokenStats) (w : World) :
    OptimizeTokenset A env ntokens p ty (some ts) r w ↔
      Optimize.OptimizeTokenset env ntokens p ty (some ts) r w := by
  have hw0 : WorldOk env ⟨fun _ => none, []⟩ := reached_ok (reached_new env [])
  have hb := sameBo_for hB.exact ty
  obtain ⟨Fam, lo, hi, B, hl, _⟩ := workable_behaves hwk
  constructor
  · intro h
    cases h with
    | run h1 h2 =>
      cases h1
      exact .run .pure ((impl_iff hB he hd hb B hl hw0).1 h2)
    | startFail h1 => cases h1
  · intro h
    cases h with
    | run h1 h2 =>
      cases h1
      exact .run .pure ((impl_iff hB he hd hb B hl hw0).2 h2)
    | startFail h1 => cases h1

end MachineOpt
end Tokens
