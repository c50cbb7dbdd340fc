import Verif.Proofs.MainLog
import Verif.Proofs.Commands

/-! The console output of `optimize_with_increasing_data`. -/

namespace Tokens
open Spec TokenSet Optimize Batch Main Input

theorem sampleSizes_append (l m : List Note) : sampleSizes (l ++ m) = sampleSizes l ++ sampleSizes m :=
  List.filterMap_append

theorem sampleSizes_opt (l : List Printed) : sampleSizes (l.map .opt) = [] := by
  induction l with
  | nil => rfl
  | cons e l ih => exact ih

theorem sampleSizes_before {m : Machine} {env : Env} {n : Option Nat} {ts : Option TokenSet} {o : List Note}
    (h : Before m env n ts o) : sampleSizes o = [] := by cases h <;> rfl

theorem stopping_opt (l : List Printed) : Note.stopping ∉ l.map Note.opt := by
  intro h
  obtain ⟨_, _, h⟩ := List.mem_map.1 h
  cases h

theorem stopping_before {m : Machine} {env : Env} {n : Option Nat} {ts : Option TokenSet} {o : List Note}
    (h : Before m env n ts o) : Note.stopping ∉ o := by cases h <;> simp

/-- The size that is printed is the size of the sample. -/
theorem sampleEnv_size {m : Machine} {file : Bytes} {size : Nat} {n : Option Nat} {env : Env}
    (h : sampleEnv m file size n = .ok env) :
    ∃ s, sampleFromFile file size (2 ^ 20) = .ok s ∧ env.sampler.totalSize = s.data.length := by
  have hs20 : (1 <<< 20 : Nat) = 2 ^ 20 := by decide
  unfold sampleEnv memoryEnv at h
  rw [← hs20]
  cases hsf : sampleFromFile file size (1 <<< 20) with
  | error e => rw [hsf] at h; cases h
  | ok s =>
    simp only [hsf, R.ok_bind] at h
    refine ⟨s, rfl, ?_⟩
    cases hms : memorySampler ⟨s.data, 1 <<< 20⟩ with
    | error e => rw [hms] at h; cases h
    | ok sd =>
      simp only [hms, R.ok_bind] at h
      have he := Except.ok.inj h
      rw [← he]
      unfold memorySampler at hms
      cases hv : memSlices ⟨s.data, 1 <<< 20⟩ (s.data.length + 1) 0 with
      | error e => simp only [hv, R.error_bind] at hms; cases hms
      | ok l =>
        simp only [hv, R.ok_bind] at hms
        rw [← Except.ok.inj hms]

theorem increasingT_fails {m file ntokens p ty n size ts r saved o}
    (h : IncreasingT m file ntokens p ty n size ts r saved o) : succeeds r = false → Note.stopping ∉ o := by
  induction h with
  | exhausted h => intro _; simp
  | sample h hs => intro _; simp
  | before h hs hf => intro _; simp
  | optimize h hs hb ho =>
    intro _
    simp only [List.mem_cons, List.mem_append, not_or]
    exact ⟨by simp, stopping_before hb, stopping_opt _⟩
  | full h hs hb ho hf =>
    intro _
    simp only [List.mem_cons, List.mem_append, not_or]
    exact ⟨by simp, ⟨stopping_before hb, stopping_opt _⟩, by simp, by simp⟩
  | stop h hs hb ho hf hst => intro h; cases h
  | again h hs hb ho hf hst _ ih =>
    intro hr
    simp only [List.mem_cons, List.mem_append, not_or]
    exact ⟨by simp, ⟨⟨stopping_before hb, stopping_opt _⟩, by simp, by simp, by simp⟩, ih hr⟩

theorem increasingT_succeeds {m file ntokens p ty n size ts r saved o}
    (h : IncreasingT m file ntokens p ty n size ts r saved o) : ∀ st, r = .ok st →
    ∃ u k, o = u ++ [.full st, .stopping] ∧ Note.stopping ∉ u ∧ 2 ^ 24 < size * 2 ^ k ∧
      size * 2 ^ k < file.length ∧
      List.Forall₂ (fun i x => ∃ s, sampleFromFile file (size * 2 ^ i) (2 ^ 20) = .ok s ∧ x = s.data.length)
        (List.range (k + 1)) (sampleSizes o) := by
  have hk : (1 <<< 24 : Nat) = 2 ^ 24 := by decide
  induction h with
  | exhausted h => intro _ h; cases h
  | sample h hs => intro _ h; cases h
  | before h hs hf => intro _ h; cases h
  | optimize h hs hb ho => intro _ h; cases h
  | full h hs hb ho hf => intro _ h; cases h
  | @stop size ts env st w st' o out h hs hb ho hf hst =>
    intro st1 e
    have := Except.ok.inj e
    subst this
    refine ⟨.sample env.sampler.totalSize :: (o ++ out.map .opt ++ [.optimized st]), 0, by simp, ?_, by omega,
      by omega, ?_⟩
    · simp only [List.mem_cons, List.mem_append, not_or]
      exact ⟨by simp, ⟨stopping_before hb, stopping_opt _⟩, by simp, by simp⟩
    · show List.Forall₂ _ [0] (_ :: sampleSizes (_ ++ _ ++ _))
      rw [sampleSizes_append, sampleSizes_append, sampleSizes_before hb, sampleSizes_opt]
      exact .cons (by simpa using sampleEnv_size hs) .nil
  | @again size ts env st w st' r saved o out notes h hs hb ho hf hst hr ih =>
    intro st1 e
    obtain ⟨u, k, h1, h2, h3, h4, h5⟩ := ih st1 e
    have e2 : ∀ k : Nat, size * 2 ^ (k + 1) = size * 2 * 2 ^ k := by
      intro k; rw [Nat.pow_succ, Nat.mul_comm (2 ^ k), ← Nat.mul_assoc]
    refine ⟨.sample env.sampler.totalSize :: (o ++ out.map .opt ++ [.optimized st, .full st'] ++ u), k + 1,
      by rw [h1]; simp, ?_, by rw [e2]; exact h3, by rw [e2]; exact h4, ?_⟩
    · simp only [List.mem_cons, List.mem_append, not_or]
      exact ⟨by simp, ⟨⟨stopping_before hb, stopping_opt _⟩, by simp, by simp, by simp⟩, h2⟩
    · show List.Forall₂ _ _ (_ :: sampleSizes (_ ++ _ ++ _ ++ _))
      rw [sampleSizes_append, sampleSizes_append, sampleSizes_append, sampleSizes_before hb, sampleSizes_opt,
        List.range_succ_eq_map]
      refine .cons (by simpa using sampleEnv_size hs) ?_
      show List.Forall₂ _ _ (sampleSizes notes)
      rw [List.forall₂_map_left_iff]
      refine h5.imp (fun i x => ?_)
      rw [e2]
      exact id

theorem increasingT_improves {m file ntokens p ty n size ts r saved o} (hm : MachineOk m)
    (h : IncreasingT m file ntokens p ty n size ts r saved o) : GoodInput ty p ntokens ts →
    Improves ntokens o := by
  induction h with
  | exhausted h => intro _; trivial
  | sample h hs => intro _; trivial
  | before h hs hf => intro _; trivial
  | @optimize size _ _ _ _ _ _ h hs hb ho =>
    intro hi
    obtain ⟨env, h1, h2, _⟩ := sampleEnv_ok hm file size n
    have := Except.ok.inj (h1.symm.trans hs)
    subst this
    obtain ⟨st, e, _⟩ := optimize_good h2 hi (optimizeT_iff.1 ⟨_, ho⟩)
    cases e
  | full h hs hb ho hf =>
    intro hi
    show Improves _ (_ ++ _ ++ _)
    rw [List.append_assoc]
    cases hb with
    | none => exact improves_opt _ trivial
    | some hb =>
      obtain ⟨env, h1, h2, h3, _⟩ := sampleEnv_ok hm file _ n
      have := Except.ok.inj (h1.symm.trans hs)
      subst this
      have hb' := Props.C07_tokenize_file _ (Tokens.Family.usable hi.family).inRange _ n _ hm.threads _ hb
      exact ⟨⟨_, _, _, rfl, optimized_improved h2 hi (by rw [h3]; exact hb') ho⟩, improves_opt _ trivial⟩
  | stop h hs hb ho hf hst =>
    intro hi
    show Improves _ (_ ++ _ ++ _)
    rw [List.append_assoc]
    cases hb with
    | none => exact improves_opt _ trivial
    | some hb =>
      obtain ⟨env, h1, h2, h3, _⟩ := sampleEnv_ok hm file _ n
      have := Except.ok.inj (h1.symm.trans hs)
      subst this
      have hb' := Props.C07_tokenize_file _ (Tokens.Family.usable hi.family).inRange _ n _ hm.threads _ hb
      exact ⟨⟨_, _, _, rfl, optimized_improved h2 hi (by rw [h3]; exact hb') ho⟩, improves_opt _ trivial⟩
  | again h hs hb ho hf hst _ ih =>
    intro hi
    obtain ⟨env, h1, h2, h3, _⟩ := sampleEnv_ok hm file _ n
    have := Except.ok.inj (h1.symm.trans hs)
    subst this
    obtain ⟨st, e, _, hw⟩ := optimize_good h2 hi (optimizeT_iff.1 ⟨_, ho⟩)
    have := Except.ok.inj e
    subst this
    have h4 := ih hw
    show Improves _ (_ ++ _ ++ _ ++ _)
    rw [List.append_assoc, List.append_assoc]
    cases hb with
    | none => exact improves_opt _ h4
    | some hb =>
      have hb' := Props.C07_tokenize_file _ (Tokens.Family.usable hi.family).inRange _ n _ hm.threads _ hb
      exact ⟨⟨_, _, _, rfl, optimized_improved h2 hi (by rw [h3]; exact hb') ho⟩, improves_opt _ h4⟩

end Tokens
