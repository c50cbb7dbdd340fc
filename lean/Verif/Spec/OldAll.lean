import Verif.Model.OldAll
import Verif.Spec.OldOptimizer

/-!
Specification for the files of the first generation of the optimizer (`optimize_all`), and for calls of its caches.
-/

namespace Tokens.Spec.Old
open Tokens Tokens.Old

/-- A call of one of the two caches. -/
inductive Call where
  | stats (c : Which) (ts : OSet)
  | pairs (c : Which) (ts : OSet)

/-- The set of a call. -/
def Call.set : Call → OSet
  | .stats _ ts => ts
  | .pairs _ ts => ts

/-- One call after the other, and what they return. -/
def ask : List Call → Prog (List OStats)
  | [] => .pure []
  | .stats c ts :: calls => .stats c ts (fun st => (ask calls).bind (fun sts => .pure (st :: sts)))
  | .pairs c ts :: calls => .pairs c ts (fun st => (ask calls).bind (fun sts => .pure (st :: sts)))

/-- A right answer: with pairs, the numbers of a cheapest way to write each sample; without pairs, the cost, and the numbers
of a cheapest way, where the tokens may be numbered in another order. -/
def Answer (env : Env) : Call → OStats → Prop
  | .pairs c ts, st => Right ts (env.samples c) true st
  | .stats c ts, st => IsCost ts (env.samples c) st.cost ∧ ∃ ts0, Made ts0 ∧ (strings ts0).Perm (strings ts) ∧
      ts0.literal = ts.literal ∧ Right ts0 (env.samples c) false st

/-- A file that was written for this set. -/
def Holds (v : Json) (ts : OSet) : Prop := ∃ fl size processing st, v = fileJson fl size processing ts st

/-- A set that may be in the file for `m` tokens. -/
structure FileSet (m : Nat) (ts : OSet) : Prop where
  made : Made ts
  noZero : NoZero ts
  literal : ts.literal = .dist8
  size : ts.ntokens = m

/-- Every file was written for a set with as many tokens as its name says. -/
def GoodFiles (files : OFiles) : Prop := ∀ m v, files m = some v → ∃ ts, Holds v ts ∧ FileSet m ts

/-- The file `v` is for a set that costs at least `c` on these texts. -/
def AtLeast (v : Json) (xs : List Bytes) (c : Nat) : Prop :=
  ∀ ts c', Holds v ts → Made ts → ts.literal = .dist8 → IsCost ts xs c' → c ≤ c'

/-- The file for `m` tokens was written: it has a set with `m` tokens and its statistics on the slow samples; this set does
not cost more than the one that was there before, or, if there was none, than the one with half as many tokens. -/
structure Written (j : Job) (files files' : OFiles) (m : Nat) : Prop where
  new : ∃ ts st, files' m = some (fileJson j.fl j.size j.processing ts st) ∧ FileSet m ts ∧ Right ts j.env.slow false st ∧
    (∀ v, files m = some v → AtLeast v j.env.slow st.cost) ∧
    (files m = none → 2 < m → ∀ v, files' (m / 2) = some v → AtLeast v j.env.slow st.cost)

/-- The file for `m` tokens has a set that costs no more than one where exchanges were given up (`Final`). -/
def Settled (j : Job) (files' : OFiles) (m : Nat) : Prop :=
  ∃ ts st, files' m = some (fileJson j.fl j.size j.processing ts st) ∧ Final j.env m [(ts, st)]

/-- A number of tokens that `optimize_all` goes through, starting with `n`. -/
structure Size (j : Job) (n m : Nat) : Prop where
  doubled : ∃ k, m = n * 2 ^ k
  max : m ≤ j.maxTokens
  use : ¬ (j.raw = true ∧ 1024 ≤ m)

/-- How a run of `optimize_all` may end. -/
def AllOutcome (j : Job) (n : Nat) : R Unit → Prop
  | .ok _ => True
  | .error .fuel => True
  | .error .assertFailed => ∃ m, Size j n m ∧ Tie j.env m
  | .error .unwrapNone => ∃ m, Size j n m ∧ Exhausted j.env m
  | .error _ => False

/-- How literals are written after a set was saved and loaded: every distribution becomes the one with 8 bits. -/
def reload : LiteralEncoding → LiteralEncoding
  | .dist2 => .dist8
  | .dist4 => .dist8
  | le => le

end Tokens.Spec.Old
