import Verif.Proofs.Repeat

/-!
# Property C66: the optimizer is reproducible

The theorems about the optimizer (C36 - C42, C47, C49, C50, C65) hold for any order of equal elements in the
unstable sort, any schedule of threads and any clock.  If the sort is a function, the result is one as
well.
-/

namespace Tokens.Props
open Tokens Spec Optimize Batch

/-- **C66** (from scratch).  Two runs of `optimize_tokenset` on the same samples, with the same size, type
and processing, give the same token set with the same statistics, even if they differ in the number of
threads, in whether the tokenizer works sequentially or in parallel, in the schedule of the threads and in
the clock. -/
theorem C66_reproducible (sort : SortFn) (hsort : sort.Sorts) (env1 env2 : Env)
    (he1 : EnvOk env1) (he2 : EnvOk env2)
    (hsamples : env1.sampler.samples = env2.sampler.samples) (hsize : env1.initialSize = env2.initialSize)
    (ty : TokenType) (p : Processing) (ntokens : Nat) (hn : Admissible ty ntokens)
    (r1 r2 : R TokenStats) (w1 w2 : World)
    (h1 : OptimizeBy sort env1 ntokens p ty none r1 w1) (h2 : OptimizeBy sort env2 ntokens p ty none r2 w2) :
    r1 = r2 := by
  have hd : SameData env1 env2 := sameData_perm (.of_eq hsamples) hsize
  have hwp := start_wp (env := env1) (S := fun _ => False) ty p ntokens hn
  cases h1 with
  | startFail a1 =>
    obtain ⟨_, e, _⟩ := start_run he1 hn (a1.run hsort)
    cases e
  | run a1 a2 =>
    cases h2 with
    | startFail b1 =>
      obtain ⟨_, e, _⟩ := start_run he2 hn (b1.run hsort)
      cases e
    | run b1 b2 =>
      have e := one_result hd he1 he2 a1 hsort (noClock_start _ _ _ _) hwp
        (reached_ok (reached_new env1 [])) (reached_ok (reached_new env2 [])) b1
      cases e
      obtain ⟨_, e, hg, hw1, _⟩ := start_run he1 hn (a1.run hsort)
      cases e
      obtain ⟨_, e, _, hw2, _⟩ := start_run he2 hn (b1.run hsort)
      cases e
      obtain ⟨Fam, lo, hi, B, hl, _⟩ := workable_behaves hg.work
      exact impl_one hd he1 he2 hsort B hl (reached_ok hw1) (reached_ok hw2) a2 b2

/-- **C66** (from a pretrained set). -/
theorem C66_reproducible_pretrained (sort : SortFn) (hsort : sort.Sorts) (env1 env2 : Env)
    (he1 : EnvOk env1) (he2 : EnvOk env2)
    (hsamples : env1.sampler.samples = env2.sampler.samples) (hsize : env1.initialSize = env2.initialSize)
    (ty : TokenType) (p : Processing) (ntokens : Nat) (ts : TokenSet) (hwk : Workable ty p ntokens ts)
    (r1 r2 : R TokenStats) (w1 w2 : World)
    (h1 : OptimizeBy sort env1 ntokens p ty (some ts) r1 w1)
    (h2 : OptimizeBy sort env2 ntokens p ty (some ts) r2 w2) : r1 = r2 := by
  obtain ⟨Fam, lo, hi, B, hl, _⟩ := workable_behaves hwk
  cases h1 with
  | startFail a1 => cases a1
  | run a1 a2 =>
    cases a1
    cases h2 with
    | startFail b1 => cases b1
    | run b1 b2 =>
      cases b1
      exact impl_one (sameData_perm (.of_eq hsamples) hsize) he1 he2 hsort B hl (reached_ok (reached_new env1 []))
        (reached_ok (reached_new env2 [])) a2 b2

/-- **C66** (they are runs).  What is proved about all runs holds for these. -/
theorem C66_is_a_run (sort : SortFn) (hsort : sort.Sorts) (env : Env) (ty : TokenType) (p : Processing)
    (ntokens : Nat) (pre : Option TokenSet) (r : R TokenStats) (w : World)
    (h : OptimizeBy sort env ntokens p ty pre r w) : OptimizeTokenset env ntokens p ty pre r w :=
  h.optimize hsort

/-- **C66** (they exist).  For every sort and every admissible size there is a run, and it ends with a
result. -/
theorem C66_exists (sort : SortFn) (hsort : sort.Sorts) (env : Env) (he : EnvOk env) (ty : TokenType)
    (p : Processing) (ntokens : Nat) (hn : Admissible ty ntokens) :
    ∃ st w, OptimizeBy sort env ntokens p ty none (.ok st) w := by
  obtain ⟨r, w, hr⟩ := wp_total_by hsort he _ (start_wp (env := env) (S := fun _ => False) ty p ntokens hn)
    (reached_ok (reached_new env []))
  obtain ⟨ts, e, hg, hw, hs⟩ := start_run he hn (hr.run hsort)
  subst e
  obtain ⟨Fam, lo, hi, B, hl, _⟩ := workable_behaves hg.work
  obtain ⟨r', w', hi⟩ := impl_total_by hsort B he hl (reached_ok hw)
  obtain ⟨full, e, _⟩ := impl_ok B he hl (reached_ok hw) (hi.impl hsort)
  subst e
  exact ⟨_, _, .run hr hi⟩

/-- A stable sort is one of the sorts. -/
theorem stable_sorts : SortFn.Sorts (fun key l => l.mergeSort (fun a b => decide (key a ≤ key b))) := by
  intro key l
  refine ⟨List.mergeSort_perm _ _, ?_⟩
  have := List.pairwise_mergeSort (le := fun a b => decide (key a ≤ key b))
    (by intro a b c h1 h2; simp at *; omega) (by intro a b; simp; omega) l
  exact this.imp (by simp)

-- the hypotheses are met: runs with one and with eight threads that have the same result
example : ∃ st w1 w2,
    OptimizeBy (fun key l => l.mergeSort (fun a b => decide (key a ≤ key b))) smallEnv 300 .raw .bytesHuff none
      (.ok st) w1 ∧
    OptimizeBy (fun key l => l.mergeSort (fun a b => decide (key a ≤ key b))) { smallEnv with nthreads := 8 }
      300 .raw .bytesHuff none (.ok st) w2 := by
  have he : EnvOk { smallEnv with nthreads := 8 } := ⟨by decide, smallEnv_ok.2⟩
  obtain ⟨st1, w1, h1⟩ := C66_exists _ stable_sorts smallEnv smallEnv_ok .bytesHuff .raw 300 (by decide : 3 ≤ 300)
  obtain ⟨st2, w2, h2⟩ := C66_exists _ stable_sorts _ he .bytesHuff .raw 300 (by decide : 3 ≤ 300)
  have e := C66_reproducible _ stable_sorts smallEnv _ smallEnv_ok he rfl rfl .bytesHuff .raw 300
    (by decide : 3 ≤ 300) _ _ _ _ h1 h2
  cases e
  exact ⟨st1, w1, w2, h1, h2⟩

end Tokens.Props
