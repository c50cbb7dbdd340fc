import Verif.Proofs.MachineOpt3
import Verif.Props.Optimize

/-!
# Property C65: the 64-bit arithmetic of the optimizer

The theorems about the optimizer (C29 - C42, C49, C50) compute with natural numbers and integers.  These
show that the program, which computes with `u64` and `i64`, does the same in builds with and without
overflow checks, for data of fewer than `2^45` bytes (32 TiB).
-/

namespace Tokens.Props
open Tokens Spec Optimize

/-- **C65** (one round).  From any state the optimizer can be in, one round with machine arithmetic has
exactly the same outcomes: the same results, the same cache, the same files. -/
theorem C65_round_no_overflow (A : MachineOpt.Arith) (hA : A = MachineOpt.checked ∨ A = MachineOpt.wrapping)
    (env : Env) (he : EnvOk env) (hsmall : (env.sampler.samples.map List.length).sum < 2 ^ 45)
    (ty : TokenType) (p : Processing) (ntokens : Nat) (ts : TokenSet) (hwk : Workable ty p ntokens ts)
    (rc : Removals) (w : World) (hw : Reached env w) (r : R (Option TokenSet × Removals)) (w' : World) :
    MachineOpt.Run A env (MachineOpt.optimizationStep A (MachineOpt.optimizerFor A ty) ts ntokens rc) w r w' ↔
      Run env (optimizationStep (optimizerFor ty) ts ntokens rc) w r w' := by
  have hB := MachineOpt.build_of hA
  obtain ⟨Fam, lo, hi, B, hl, _⟩ := workable_behaves hwk
  exact MachineOpt.step_iff hB he hsmall (MachineOpt.sameBo_for hB.exact ty) B hl rc (reached_ok hw)

/-- **C65** (from scratch).  For every token type and every size asked for, `optimize_tokenset` with
machine arithmetic has exactly the same outcomes. -/
theorem C65_from_scratch_no_overflow (A : MachineOpt.Arith)
    (hA : A = MachineOpt.checked ∨ A = MachineOpt.wrapping)
    (env : Env) (he : EnvOk env) (hsmall : (env.sampler.samples.map List.length).sum < 2 ^ 45)
    (ty : TokenType) (p : Processing) (ntokens : Nat) (r : R TokenStats) (w : World) :
    MachineOpt.OptimizeTokenset A env ntokens p ty none r w ↔ OptimizeTokenset env ntokens p ty none r w :=
  MachineOpt.scratch_iff (MachineOpt.build_of hA) he hsmall ty p ntokens r w

/-- **C65** (from a pretrained set). -/
theorem C65_pretrained_no_overflow (A : MachineOpt.Arith)
    (hA : A = MachineOpt.checked ∨ A = MachineOpt.wrapping)
    (env : Env) (he : EnvOk env) (hsmall : (env.sampler.samples.map List.length).sum < 2 ^ 45)
    (ty : TokenType) (p : Processing) (ntokens : Nat) (ts : TokenSet) (hwk : Workable ty p ntokens ts)
    (r : R TokenStats) (w : World) :
    MachineOpt.OptimizeTokenset A env ntokens p ty (some ts) r w ↔
      OptimizeTokenset env ntokens p ty (some ts) r w :=
  MachineOpt.pretrained_iff (MachineOpt.build_of hA) he hsmall hwk r w

/-- **C65** (no panic).  For admissible sizes the program with machine arithmetic ends with a result, and
never with a panic. -/
theorem C65_ends (A : MachineOpt.Arith) (hA : A = MachineOpt.checked ∨ A = MachineOpt.wrapping)
    (env : Env) (he : EnvOk env) (hsmall : (env.sampler.samples.map List.length).sum < 2 ^ 45)
    (ty : TokenType) (p : Processing) (ntokens : Nat) (hn : Admissible ty ntokens) :
    (∃ st w, MachineOpt.OptimizeTokenset A env ntokens p ty none (.ok st) w) ∧
    ∀ r w, MachineOpt.OptimizeTokenset A env ntokens p ty none r w →
      ∃ st, r = .ok st ∧ Result env ty p ntokens st w := by
  constructor
  · obtain ⟨st, w, h⟩ := optimize_ends env he ty p ntokens hn
    exact ⟨st, w, (C65_from_scratch_no_overflow A hA env he hsmall ty p ntokens _ w).2 h⟩
  · intro r w h
    obtain ⟨st, h1, h2, _⟩ := C38_from_scratch env he ty p ntokens hn r w
      ((C65_from_scratch_no_overflow A hA env he hsmall ty p ntokens r w).1 h)
    exact ⟨st, h1, h2⟩

-- the hypotheses are met: a run of the release build
example : ∃ st w, MachineOpt.OptimizeTokenset MachineOpt.wrapping smallEnv 300 .raw .bytesHuff none (.ok st) w :=
  (C65_ends _ (.inr rfl) smallEnv smallEnv_ok (by decide) .bytesHuff .raw 300 (by decide : 3 ≤ 300)).1

-- ... and a round
example : ∃ ts r w', Workable .bits4 .raw 20 ts ∧
    MachineOpt.Run MachineOpt.checked smallEnv (MachineOpt.optimizationStep MachineOpt.checked
      (MachineOpt.optimizerFor MachineOpt.checked .bits4) ts 20 (fun _ => 0)) ⟨fun _ => none, []⟩ r w' := by
  obtain ⟨ts, _, h⟩ := workable_bits4
  have hw := reached_new smallEnv []
  obtain ⟨r, w', hr⟩ := C36_step_ends smallEnv smallEnv_ok _ _ _ ts h (fun _ => 0) _ hw
  exact ⟨ts, r, w', h,
    (C65_round_no_overflow _ (.inl rfl) smallEnv smallEnv_ok (by decide) _ _ _ ts h _ _ hw r w').2 hr⟩

-- bounds are needed: the arithmetic of the builds differs from that of numbers
example : MachineOpt.toI64 (2 ^ 63) = -2 ^ 63 ∧
    MachineOpt.checked.neg (MachineOpt.toI64 (2 ^ 63)) = .error .overflow ∧
    MachineOpt.wrapping.neg (MachineOpt.toI64 (2 ^ 63)) = .ok (-2 ^ 63) ∧
    MachineOpt.wrapping.mul (2 ^ 32) (2 ^ 32) = .ok 0 := by
  refine ⟨by decide, ?_, ?_, ?_⟩
  · rfl
  · exact congrArg Except.ok (by decide)
  · exact congrArg Except.ok (by decide)

end Tokens.Props
