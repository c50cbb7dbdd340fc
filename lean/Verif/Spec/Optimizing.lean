import Verif.Spec.Family
import Verif.Model.Optimize

/-!
Specification for the optimizer as a whole: the statistics it works with, what it may be given, and
what it means that it goes on.
-/

namespace Tokens.Spec
open Tokens Batch Optimize

/-- The statistics of the data with `ts`, made afresh by the sequential tokenizer from the sorted
set. -/
def Fresh (env : Env) (ts : TokenSet) (st : TokenStats) : Prop :=
  ∃ ts', ts.sort = .ok ts' ∧ tokenizeFileSync ts' env.sampler.samples env.initialSize = .ok st

/-- Surroundings in which `tokenize_file` works: at least one thread and, if the data is large enough
for the parallel path, no empty sample. -/
def EnvOk (env : Env) : Prop :=
  0 < env.nthreads ∧ (env.sampler.totalSize < 2 ^ 25 ∨ ∀ x ∈ env.sampler.samples, x ≠ [])

/-- The number of ext and single-byte tokens. -/
def shortCount (ts : TokenSet) : Nat := ts.nExt + (byteTokens ts).length

/-- A set of its family (see `Verif/Spec/Family.lean`) that the optimizer for type `ty` can work on
when it aims for `ntokens` tokens. -/
structure Workable (ty : TokenType) (p : Processing) (ntokens : Nat) (ts : TokenSet) : Prop where
  family : Family ts
  type : ts.tokenType = ty
  processing : ts.processing = p
  size : ts.tokens.length ≤ ntokens
  /-- the bits types: no more tokens than ext tokens and bytes -/
  bits : ∀ q, bitsParams ty = some q → ntokens ≤ q.1 + 256
  /-- byteshuff: the short tokens are within the range of the byte optimizer -/
  huff : ty = .bytesHuff → 3 ≤ shortCount ts ∧ shortCount ts ≤ 258

/-- The cache has been used on sets of the families only (and holds what these calls put into it). -/
def Reached (env : Env) (w : World) : Prop :=
  ∃ l, History env.sampler env.initialSize env.nthreads l w.cache ∧ ∀ ts ∈ l, Family ts

/-- One round of the loop that goes on: src/optimize.rs:312-323. -/
def Round (env : Env) (bo : OptimizeBytes.BytesOptimizer) (ntokens : Nat)
    (a b : TokenSet × Removals × World) : Prop :=
  ∃ w, Run env (optimizationStep bo a.1 ntokens a.2.1) a.2.2 (.ok (some b.1, b.2.1)) w ∧
    Run env (maybeSave b.1) w (.ok ()) b.2.2

/-- Sorted as `TokenSet::sort` does it. -/
def Sorted (ts : TokenSet) : Prop :=
  ts.tokens.Pairwise TokenBefore ∧ ts.sequences.Pairwise (fun a b => a.string ≤ b.string)

/-- The sizes that can be asked for, by token type. -/
def Admissible (ty : TokenType) (ntokens : Nat) : Prop :=
  match ty with
  | .bits1 => 2 ≤ ntokens ∧ ntokens ≤ 2 + 256
  | .bits2 => 4 ≤ ntokens ∧ ntokens ≤ 4 + 256
  | .bits4 => 16 ≤ ntokens ∧ ntokens ≤ 16 + 256
  | .bytes => 256 ≤ ntokens
  | .bytesHuff => 3 ≤ ntokens

/-- `ts` is the set that the optimizer starts from. -/
def StartsWith (env : Env) (ntokens : Nat) (p : Processing) (ty : TokenType)
    (pretrained : Option TokenSet) (ts : TokenSet) : Prop :=
  ∃ w, Run env (startSet ntokens p ty pretrained) ⟨fun _ => none, []⟩ (.ok ts) w

end Tokens.Spec
