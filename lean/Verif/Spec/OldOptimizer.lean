import Verif.Model.OldOptimizer
import Verif.Spec.Old
import Mathlib.Data.List.Forall2

/-!
Specification for the first generation of the optimizer (`optimizer.rs`): what texts cost with a set, which
texts a set could get, what an exchange of two tokens is.
-/

namespace Tokens.Spec.Old
open Tokens Tokens.Old

/-- The texts of the tokens. -/
def strings (ts : OSet) : List Bytes := ts.tokens.map OToken.string

/-- The texts of the tokens that every set with these literals has. -/
def fixed (ts : OSet) : List Bytes := (ts.tokens.filter OToken.isMandatory).map OToken.string

/-- What the texts cost together, each written in a cheapest way. -/
def IsCost (ts : OSet) (xs : List Bytes) (c : Nat) : Prop :=
  ∃ cut, List.Forall₂ (Cheapest ts) xs cut ∧ c = (cut.map (cost ts.literal.literalCost)).sum

/-- No token contains the byte 0, unless it is that byte alone. -/
def NoZero (ts : OSet) : Prop := ∀ s ∈ strings ts, (0 : UInt8) ∉ s ∨ s = [0]

/-- The statistics count the pieces of a cheapest way to write each of the texts. -/
structure Right (ts : OSet) (xs : List Bytes) (pairs : Bool) (st : OStats) : Prop where
  counts : ∃ cut, List.Forall₂ (Cheapest ts) xs cut ∧ Counted st xs cut pairs ∧
    st.cost = (cut.map (cost ts.literal.literalCost)).sum
  size : st.tokenCount.length = ts.tokens.length

/-- Samplers that can be used: no sample is empty, no sample contains the byte 0, and there is a thread. -/
structure Usable (env : Env) : Prop where
  slow : ∀ x ∈ env.slow, x ≠ [] ∧ (0 : UInt8) ∉ x
  mid : ∀ x ∈ env.mid, x ≠ [] ∧ (0 : UInt8) ∉ x
  fast : ∀ x ∈ env.fast, x ≠ [] ∧ (0 : UInt8) ∉ x
  threads : 0 < env.nthreads

/-- A set that may be used with others: made with the methods of `TokenSet`, with these literals, at most 65536 tokens, and no
token that contains the byte 0 beside others. -/
structure Allowed (lit : LiteralEncoding) (ts : OSet) : Prop where
  made : Made ts
  noZero : NoZero ts
  literal : ts.literal = lit
  few : ts.tokens.length ≤ 65536

/-- Every text is a token: nothing can be added. -/
def AllTokens (ts : OSet) (xs : List Bytes) : Prop := ∀ x ∈ xs, x ∈ strings ts

/-- How often a byte is written as a literal. -/
def litUses (cut : List (List Piece)) (b : UInt8) : Nat := (cut.map (·.count (.lit b))).sum

/-- The text of two tokens. -/
def pairText (ts : OSet) (p : Nat × Nat) : Bytes :=
  (strings ts).getD p.1 [] ++ (strings ts).getD p.2 []

/-- How often two neighbouring tokens have this text together. -/
def pairUses (ts : OSet) (cut : List (List Piece)) (s : Bytes) : Nat :=
  (cut.map (fun ps => (neighbours ps).countP (fun p => pairText ts p = s))).sum

/-- How often a byte is written, as a token or as a literal. -/
def byteUsesIn (ts : OSet) (cut : List (List Piece)) (b : UInt8) : Nat :=
  (cut.map (fun ps => ps.countP (fun p => text ts p = some [b]))).sum

/-- A text that can become a token. -/
structure NewText (ts : OSet) (xs : List Bytes) (s : Bytes) : Prop where
  new : s ∉ strings ts
  ne : s ≠ []
  found : ∃ x ∈ xs, s <:+: x

/-- A text with the most uses: as two neighbouring tokens, or as a literal. -/
structure BestText (ts : OSet) (cut : List (List Piece)) (s : Bytes) : Prop where
  most : ∃ m, 0 < m ∧ (pairUses ts cut s = m ∨ ∃ b, s = [b] ∧ litUses cut b = m) ∧ (∀ b, litUses cut b ≤ m) ∧
    ∀ s', pairUses ts cut s' ≤ m

/-- How often two tokens are neighbours. -/
def pairCountIn (cut : List (List Piece)) (p : Nat × Nat) : Nat := (cut.map (fun ps => (neighbours ps).count p)).sum

/-- What a text is worth as a new token, judged by a literal or by two neighbouring tokens. -/
inductive Value (ts : OSet) (cut : List (List Piece)) : Bytes → Nat → Prop where
  | lit (b : UInt8) (h : 0 < litUses cut b) : Value ts cut [b] (litUses cut b * (ts.literal.literalCost - 1))
  | pair (p : Nat × Nat) (h : 0 < pairCountIn cut p) : Value ts cut (pairText ts p) (pairCountIn cut p)

/-- The new texts are at most `n`; no other text is worth more than one of them; if they are fewer than `n`, there
is no other text. -/
structure Chosen (ts : OSet) (cut : List (List Piece)) (n : Nat) (added : List Bytes) : Prop where
  length : added.length ≤ n
  worth : ∀ s ∈ added, ∃ v, Value ts cut s v ∧ ∀ s' v', Value ts cut s' v' → s' ∉ added → v' ≤ v
  all : added.length < n → ∀ s v, Value ts cut s v → s ∈ added

/-- `ts'` is `ts` with the token `s` exchanged for `s'`. -/
structure Exchanged (ts ts' : OSet) (s s' : Bytes) : Prop where
  old : s ∈ strings ts
  notFixed : s ∉ fixed ts
  new : s' ∉ strings ts
  result : (s :: strings ts').Perm (s' :: strings ts)
  fixed : fixed ts' = fixed ts
  literal : ts'.literal = ts.literal

/-- `ts0` is `ts` without the token `s`. -/
structure Without (ts : OSet) (s : Bytes) (ts0 : OSet) : Prop where
  made : Made ts0
  strings : (s :: strings ts0).Perm (strings ts)
  literal : ts0.literal = ts.literal

/-- Without the token `s`, the text `s'` is a most used one in the fast samples. -/
def Proposed (env : Env) (ts : OSet) (s s' : Bytes) : Prop :=
  ∃ ts0 cut, Without ts s ts0 ∧ NewText ts0 env.fast s' ∧ List.Forall₂ (Cheapest ts0) env.fast cut ∧ BestText ts0 cut s'

/-- One token is exchanged for the proposed one, and the samples cost less. -/
structure Improved (env : Env) (ts ts' : OSet) (s s' : Bytes) : Prop where
  made : Made ts'
  exchanged : Exchanged ts ts' s s'
  proposed : Proposed env ts s s'
  cheaper : ∀ c c', IsCost ts env.mid c → IsCost ts' env.mid c' → c' < c

/-- Taking out the token `s` does not help: the proposed text is `s` itself, or with it the samples do not cost less. -/
def Useless (env : Env) (ts : OSet) (s : Bytes) : Prop :=
  ∃ s', Proposed env ts s s' ∧ (s' = s ∨ ∃ ts', Exchanged ts ts' s s' ∧
    ∀ c c', IsCost ts env.mid c → IsCost ts' env.mid c' → c ≤ c')

/-- The tokens in `tried` were tried: none is mandatory, none of the others was tried less often before, and every
trial is counted. -/
structure Tried (ts : OSet) (before after : Attempts) (tried : List Bytes) : Prop where
  nodup : tried.Nodup
  tokens : ∀ s ∈ tried, s ∈ strings ts ∧ s ∉ fixed ts
  least : ∀ s ∈ tried, ∀ s' ∈ strings ts, s' ∉ fixed ts → s' ∉ tried → before s ≤ before s'
  counted : ∀ s, after s = if s ∈ tried then before s + 1 else before s

/-- The tokens in `tried` were tried in vain, and then `s` with success; after 512 trials only tokens are tried that
were not tried before. -/
structure Found (env : Env) (ts : OSet) (before after : Attempts) (tried : List Bytes) (s : Bytes) : Prop where
  trials : Tried ts before after (s :: tried)
  useless : ∀ x ∈ tried, Useless env ts x
  few : 512 ≤ tried.length → before s = 0

/-- The tokens in `tried` were tried in vain; these are all, or at least 512 and the others were tried before. -/
structure GaveUp (env : Env) (ts : OSet) (before after : Attempts) (tried : List Bytes) : Prop where
  trials : Tried ts before after tried
  useless : ∀ s ∈ tried, Useless env ts s
  enough : 512 ≤ tried.length ∨ ∀ s ∈ strings ts, s ∉ fixed ts → s ∈ tried
  everyOne : ∀ s ∈ strings ts, s ∉ fixed ts → 0 < after s

/-- The single bytes `removed` are tokens of `ts` and not of `ts'`, as many bytes `added` the other way round, the other
tokens are the same; then no byte without a token is used more often than one with a token. -/
structure BestBytes (ts ts' : OSet) (cut : List (List Piece)) (removed added : List UInt8) : Prop where
  length : added.length = removed.length
  nodup : removed.Nodup ∧ added.Nodup
  was : ∀ b ∈ removed, [b] ∈ strings ts
  wasNot : ∀ b ∈ added, [b] ∉ strings ts
  result : (removed.map ([·]) ++ strings ts').Perm (strings ts ++ added.map ([·]))
  best : ∀ b b', [b] ∈ strings ts' → [b'] ∉ strings ts' → byteUsesIn ts cut b' ≤ byteUsesIn ts cut b
  fixed : fixed ts' = fixed ts
  literal : ts'.literal = ts.literal

/-- One improvement after the other. -/
inductive Steps (env : Env) : OSet → OSet → Prop where
  | refl {ts : OSet} : Steps env ts ts
  | step {ts ts' ts'' : OSet} {s s' : Bytes} (h : Improved env ts ts' s s') (hs : Steps env ts' ts'') : Steps env ts ts''

/-- The texts `added` become tokens: all are new, and no other text is worth more; there is none only if none is wanted or
nothing can be added. -/
structure Added (env : Env) (c : Which) (ts : OSet) (n : Nat) (ts' : OSet) (added : List Bytes) : Prop where
  strings : strings ts' = Spec.Old.strings ts ++ added
  fixed : fixed ts' = Spec.Old.fixed ts
  best : ∃ cut, List.Forall₂ (Cheapest ts) (env.samples c) cut ∧ Chosen ts cut n added
  new : ∀ s ∈ added, NewText ts (env.samples c) s
  some : added = [] ↔ n = 0 ∨ AllTokens ts (env.samples c)

/-- The tokens that are added are parts of samples; nothing else changes. -/
structure Grown (env : Env) (c : Which) (ts ts' : OSet) : Prop where
  strings : ∃ added, strings ts' = Spec.Old.strings ts ++ added ∧ ∀ s ∈ added, ∃ x ∈ env.samples c, s <:+: x
  fixed : fixed ts' = Spec.Old.fixed ts
  literal : ts'.literal = ts.literal

/-- The sets that were saved have `n` tokens, write literals in the same way and come with their statistics on the slow samples; none costs more
than one that was saved before, or than `top`. -/
structure SavedOk (env : Env) (lit : LiteralEncoding) (n top : Nat) (saves : List (OSet × OStats)) : Prop where
  each : ∀ p ∈ saves, Made p.1 ∧ NoZero p.1 ∧ p.1.literal = lit ∧ p.1.ntokens = n ∧ Right p.1 env.slow false p.2
  order : saves.Pairwise (fun p q => q.2.cost ≤ p.2.cost)
  top : ∀ p ∈ saves, p.2.cost ≤ top

/-- The last set that was saved costs no more than one that is found like this: exchanges of tokens were given up, and then
the single bytes were exchanged. -/
def Final (env : Env) (n : Nat) (saves : List (OSet × OStats)) : Prop :=
  ∃ ts ts' before after tried cut removed added last, Made ts ∧ ts.ntokens = n ∧ GaveUp env ts before after tried ∧
    List.Forall₂ (Cheapest ts) env.slow cut ∧ BestBytes ts ts' cut removed added ∧ saves.getLast? = some last ∧
    ∀ c, IsCost ts' env.slow c → last.2.cost ≤ c

/-- No more tokens can be found, although there are fewer than `n`: every sample is a token. -/
def Stuck (env : Env) (ts : OSet) (n : Nat) : Prop :=
  ∃ ts', Made ts' ∧ Grown env .mid ts ts' ∧ ts'.ntokens < n ∧ AllTokens ts' env.mid

/-- Single bytes were exchanged in vain: on the slow samples both sets cost the same. -/
def Tie (env : Env) (n : Nat) : Prop :=
  ∃ ts ts' cut removed added c, Made ts ∧ ts.ntokens = n ∧ List.Forall₂ (Cheapest ts) env.slow cut ∧
    BestBytes ts ts' cut removed added ∧ added ≠ [] ∧ IsCost ts env.slow c ∧ IsCost ts' env.slow c

/-- Some set of this size, less one token, has every fast sample as a token. -/
def Exhausted (env : Env) (n : Nat) : Prop :=
  ∃ ts s ts0, Made ts ∧ ts.ntokens = n ∧ s ∈ strings ts ∧ s ∉ fixed ts ∧ Without ts s ts0 ∧ AllTokens ts0 env.fast

/-- The program, when the 600 seconds never pass. -/
def quiet {α : Type} : Prog α → Prog α
  | .pure a => .pure a
  | .fail e => .fail e
  | .stats c ts k => .stats c ts (fun st => quiet (k st))
  | .pairs c ts k => .pairs c ts (fun st => quiet (k st))
  | .slow ts k => .slow ts (fun st => quiet (k st))
  | .entries st k => .entries st (fun l => quiet (k l))
  | .sort key n k => .sort key n (fun l => quiet (k l))
  | .clock k => quiet (k false)
  | .save ts st k => .save ts st (quiet k)

/-- How `optimize_token_set` may end: normally; not within the bound of the model; with the failed assertion at the end, after bytes
were exchanged in vain; or with a panic because no text can be added. -/
def Outcome (env : Env) (n : Nat) : R Unit → Prop
  | .ok _ => True
  | .error .fuel => True
  | .error .assertFailed => Tie env n
  | .error .unwrapNone => Exhausted env n
  | .error _ => False

end Tokens.Spec.Old
