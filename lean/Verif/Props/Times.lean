import Verif.Proofs.Times
import Verif.Props.Repeat
import Verif.Props.Optimize
import Verif.Props.Batch
import Verif.Proofs.Commands

/-!
# Property C116: neither the order of the samples nor repeating all of them matters

Read together with `Times` (`Verif/Spec/Times.lean`): statistics of the same token set with every count
multiplied.  `(List.replicate k l).flatten` is the list `l`, `k` times over.
-/

namespace Tokens.Props
open Tokens Spec TokenSet Batch OptimizeBytes Optimize

set_option linter.unusedVariables false

/-- **C116** (the tokenizer).  Tokenizing the samples `k` times over, in any order, with any number of
threads and any schedule, gives `k` times the counts. -/
theorem C116_counts (ts : TokenSet) (hr : SeqsInRange ts) (k : Nat) (s1 s2 : SamplerData)
    (hp : s2.samples.Perm (List.replicate k s1.samples).flatten) (i1 i2 : Option Nat) (n1 n2 : Nat)
    (hn1 : 0 < n1) (hn2 : 0 < n2) (a b : TokenStats) (ha : TokenizeFile ts s1 i1 n1 a)
    (hb : TokenizeFile ts s2 i2 n2 b) : Times k a b :=
  sync_times hr hp (C07_tokenize_file ts hr s1 i1 n1 hn1 a ha) (C07_tokenize_file ts hr s2 i2 n2 hn2 b hb)

theorem optimize_twin {T : TokenStats → TokenStats → Prop} {env1 env2 : Env} (hT : Related T env1 env2)
    (he1 : EnvOk env1) (he2 : EnvOk env2) {ty : TokenType} {p : Processing} {ntokens : Nat}
    {pre : Option TokenSet} (hpre : GoodInput ty p ntokens pre)
    (hstart : Twin T Eq (startSet ntokens p ty pre) (startSet ntokens p ty pre))
    (hst : TwinSteps T (optimizerFor ty) ntokens) {r : R TokenStats} {w : World}
    (h : OptimizeTokenset env1 ntokens p ty pre r w) :
    ∃ a b w', r = .ok a ∧ OptimizeTokenset env2 ntokens p ty pre (.ok b) w' ∧ T a b ∧ w'.saved = w.saved := by
  have main : ∀ {ts w1 w2}, Workable ty p ntokens ts →
      WorldOk env1 w1 → WorldOk env2 w2 → w2.saved = w1.saved →
      Impl env1 (optimizerFor ty) ntokens ts w1 r w → ∃ a b w', r = .ok a ∧
        Impl env2 (optimizerFor ty) ntokens ts w2 (.ok b) w' ∧ T a b ∧ w'.saved = w.saved := by
    intro ts w1 w2 hwk hw1 hw2 hs hi
    obtain ⟨Fam, lo, hi', B, hl, _⟩ := workable_behaves hwk
    obtain ⟨r2, w', k1, k2, k3⟩ := twin_impl hT he1 he2 B hst hl hw1 hw2 hs hi
    obtain ⟨full, e, _⟩ := impl_ok B he1 hl hw1 hi
    subst e
    cases r2 with
    | error e => exact k2.elim
    | ok b => exact ⟨_, b, w', rfl, k1, k2, k3⟩
  have w01 := reached_ok (reached_new env1 [])
  have w02 := reached_ok (reached_new env2 [])
  cases pre with
  | some ts =>
    cases h with
    | startFail h1 => cases h1
    | run h1 h2 =>
      cases h1
      obtain ⟨a, b, w', e, k1, k2, k3⟩ := main hpre w01 w02 rfl h2
      exact ⟨a, b, w', e, .run .pure k1, k2, k3⟩
  | none =>
    cases h with
    | startFail h1 =>
      obtain ⟨_, e, _⟩ := start_run he1 hpre h1
      cases e
    | run h1 h2 =>
      obtain ⟨r2, w2, k1, k2, k3, k4⟩ := twin_run hT he1 he2 h1 hstart
        (start_wp (env := env1) (S := fun _ => False) ty p ntokens hpre) w01 w02 rfl
      have k2 := relR_eq k2
      subst k2
      obtain ⟨ts, e, hg, hw, _⟩ := start_run he1 hpre h1
      have e := (Except.ok.inj e).symm
      subst e
      obtain ⟨a, b, w', e, m1, m2, m3⟩ := main hg.work (reached_ok hw) k3 k4 h2
      exact ⟨a, b, w', e, .run k1 m1, m2, m3⟩

/-- **C116** (the order of the samples).  `optimize_tokenset`, given the same samples in another order (and
any numbers of threads, sequentially or in parallel), can come to exactly the same results, and write
exactly the same files on the way. -/
theorem C116_order (env1 env2 : Env) (he1 : EnvOk env1) (he2 : EnvOk env2)
    (hsamples : env1.sampler.samples.Perm env2.sampler.samples) (hsize : env1.initialSize = env2.initialSize)
    (ty : TokenType) (p : Processing) (ntokens : Nat) (pre : Option TokenSet)
    (hpre : GoodInput ty p ntokens pre) (r : R TokenStats) (files : List (Text × Text)) :
    (∃ w, OptimizeTokenset env1 ntokens p ty pre r w ∧ w.saved = files) ↔
      ∃ w, OptimizeTokenset env2 ntokens p ty pre r w ∧ w.saved = files := by
  have key : ∀ {env1 env2 : Env}, EnvOk env1 → EnvOk env2 →
      env1.sampler.samples.Perm env2.sampler.samples → env1.initialSize = env2.initialSize →
      (∃ w, OptimizeTokenset env1 ntokens p ty pre r w ∧ w.saved = files) →
      ∃ w, OptimizeTokenset env2 ntokens p ty pre r w ∧ w.saved = files := by
    rintro env1 env2 he1 he2 hs hi ⟨w, h, hw⟩
    have hT : Related Eq env1 env2 := by
      have : ∀ {ts a b}, Fresh env1 ts a → Fresh env2 ts b → a = b := fun h1 h2 =>
        fresh_unique h1 ((sameData_perm hs hi).fresh h2)
      exact ⟨this, fun h1 h2 => by rw [this h1 h2]⟩
    have refl : ∀ {α : Type} (q : Prog α), Twin Eq Eq q q := by
      intro α q
      induction q with
      | pure a => exact .pure rfl
      | fail e => exact .fail e
      | stats ts k ih => exact .stats (fun x y e => by subst e; exact ih x)
      | pairs ts k ih => exact .pairs (fun x y e => by subst e; exact ih x)
      | sortUnstable key l k ih => exact .sortUnstable ih
      | clock k ih => exact .clock ih
      | save ts k ih => exact .save ih
    obtain ⟨a, b, w', e, k1, k2, k3⟩ := optimize_twin hT he1 he2 hpre (refl _) (fun ts rc => refl _) h
    subst k2 e
    exact ⟨w', k1, by rw [k3, hw]⟩
  exact ⟨key he1 he2 hsamples hsize, key he2 he1 hsamples.symm hsize.symm⟩

/-- **C116** (the order of the samples, reproducibly).  If the unstable sort is a function, the order of the
samples makes no difference to the result at all. -/
theorem C116_order_reproducible (sort : SortFn) (hsort : sort.Sorts) (env1 env2 : Env)
    (he1 : EnvOk env1) (he2 : EnvOk env2)
    (hsamples : env1.sampler.samples.Perm env2.sampler.samples) (hsize : env1.initialSize = env2.initialSize)
    (ty : TokenType) (p : Processing) (ntokens : Nat) (pre : Option TokenSet)
    (hpre : GoodInput ty p ntokens pre) (r1 r2 : R TokenStats) (w1 w2 : World)
    (h1 : OptimizeBy sort env1 ntokens p ty pre r1 w1) (h2 : OptimizeBy sort env2 ntokens p ty pre r2 w2) :
    r1 = r2 := by
  have hd : SameData env1 env2 := sameData_perm hsamples hsize
  have w01 := reached_ok (reached_new env1 [])
  have w02 := reached_ok (reached_new env2 [])
  cases pre with
  | some ts =>
    obtain ⟨Fam, lo, hi, B, hl, _⟩ := workable_behaves hpre
    cases h1 with
    | startFail a1 => cases a1
    | run a1 a2 =>
      cases a1
      cases h2 with
      | startFail b1 => cases b1
      | run b1 b2 =>
        cases b1
        exact impl_one hd he1 he2 hsort B hl w01 w02 a2 b2
  | none =>
    cases h1 with
    | startFail a1 =>
      obtain ⟨_, e, _⟩ := start_run he1 hpre (a1.run hsort)
      cases e
    | run a1 a2 =>
      cases h2 with
      | startFail b1 =>
        obtain ⟨_, e, _⟩ := start_run he2 hpre (b1.run hsort)
        cases e
      | run b1 b2 =>
        have e := one_result hd he1 he2 a1 hsort (noClock_start _ _ _ _)
          (start_wp (env := env1) (S := fun _ => False) ty p ntokens hpre) w01 w02 b1
        cases e
        obtain ⟨_, e, hg, hw1, _⟩ := start_run he1 hpre (a1.run hsort)
        cases e
        obtain ⟨_, e, _, hw2, _⟩ := start_run he2 hpre (b1.run hsort)
        cases e
        obtain ⟨Fam, lo, hi, B, hl, _⟩ := workable_behaves hg.work
        exact impl_one hd he1 he2 hsort B hl (reached_ok hw1) (reached_ok hw2) a2 b2

/-- **C116** (repeating the samples).  For all types but `byteshuff` (which adds one to every count),
`optimize_tokenset` on the samples `k ≥ 1` times over, in any order, can come to exactly the results it can
come to on the samples, with `k` times the counts, writing the same files on the way. -/
theorem C116_repeat (k : Nat) (hk : 0 < k) (env1 env2 : Env) (he1 : EnvOk env1) (he2 : EnvOk env2)
    (hsamples : env2.sampler.samples.Perm (List.replicate k env1.sampler.samples).flatten)
    (ty : TokenType) (hty : ty ≠ .bytesHuff) (p : Processing) (ntokens : Nat) (pre : Option TokenSet)
    (hpre : GoodInput ty p ntokens pre) :
    (∀ r1 w1, OptimizeTokenset env1 ntokens p ty pre r1 w1 → ∃ a b w2, r1 = .ok a ∧
      OptimizeTokenset env2 ntokens p ty pre (.ok b) w2 ∧ Times k a b ∧ w2.saved = w1.saved) ∧
    (∀ r2 w2, OptimizeTokenset env2 ntokens p ty pre r2 w2 → ∃ a b w1, r2 = .ok b ∧
      OptimizeTokenset env1 ntokens p ty pre (.ok a) w1 ∧ Times k a b ∧ w1.saved = w2.saved) := by
  have hT := related_times hsamples
  have hs : TwinSteps (Times k) (optimizerFor ty) ntokens :=
    twinSteps_times hk (blind_for ty hk (fun h => absurd h hty))
  have h0 : Twin (Times k) Eq (startSet ntokens p ty pre) (startSet ntokens p ty pre) :=
    twin_start ty (fun h => absurd h hty) ntokens p pre
  have h0' : Twin (fun x y => Times k y x) Eq (startSet ntokens p ty pre) (startSet ntokens p ty pre) := by
    have := h0.swap
    rwa [show (fun x y : TokenSet => y = x) = Eq by funext x y; exact propext eq_comm] at this
  refine ⟨fun r1 w1 h => optimize_twin hT he1 he2 hpre h0 hs h, fun r2 w2 h => ?_⟩
  obtain ⟨b, a, w1, e, k1, k2, k3⟩ := optimize_twin hT.swap he2 he1 hpre h0' (twinSteps_swap hs) h
  exact ⟨a, b, w1, e, k1, k2, k3⟩

/-- The samples of `smallEnv` three times over, backwards, tokenized in parallel. -/
def bigEnv : Env :=
  { smallEnv with
    sampler := ⟨(List.replicate 3 smallEnv.sampler.samples).flatten.reverse, 2 ^ 30⟩, nthreads := 4 }

theorem bigEnv_ok : EnvOk bigEnv := ⟨by decide, .inr (by decide)⟩

-- the hypotheses are met: runs on the small data and on three times the data with the same token set
example : ∃ a b w1 w2, OptimizeTokenset smallEnv 200 .raw .bits4 none (.ok a) w1 ∧
    OptimizeTokenset bigEnv 200 .raw .bits4 none (.ok b) w2 ∧ b.tokenSet = a.tokenSet ∧
    b.totalTokens = 3 * a.totalTokens := by
  have hpre : GoodInput .bits4 .raw 200 none := ⟨by decide, by decide⟩
  obtain ⟨a, w1, h1⟩ := optimize_ends smallEnv smallEnv_ok .bits4 .raw 200 hpre
  obtain ⟨a', b, w2, e, h2, h3, _⟩ := (C116_repeat 3 (by decide) smallEnv bigEnv smallEnv_ok bigEnv_ok
    (List.reverse_perm _) .bits4 (by decide) .raw 200 none hpre).1 _ _ h1
  have e := (Except.ok.inj e).symm
  subst e
  exact ⟨a', b, w1, w2, h1, h2, h3.tokenSet, h3.total⟩

-- and with the order changed
example : ∃ st w1 w2, OptimizeTokenset bigEnv 300 .raw .bytesHuff none (.ok st) w1 ∧
    OptimizeTokenset { bigEnv with sampler := ⟨bigEnv.sampler.samples.reverse, 5⟩ } 300 .raw .bytesHuff none
      (.ok st) w2 := by
  have hpre : GoodInput .bytesHuff .raw 300 none := (by decide : 3 ≤ 300)
  obtain ⟨a, w1, h1⟩ := optimize_ends bigEnv bigEnv_ok .bytesHuff .raw 300 hpre
  obtain ⟨w2, h2, _⟩ := (C116_order bigEnv { bigEnv with sampler := ⟨bigEnv.sampler.samples.reverse, 5⟩ }
    bigEnv_ok ⟨by decide, .inl (by decide)⟩ (List.reverse_perm _).symm rfl .bytesHuff .raw 300 none hpre _ _).1
    ⟨w1, h1, rfl⟩
  exact ⟨a, w1, w2, h1, h2⟩

end Tokens.Props
