import Verif.Model.CharsFile
import Verif.Spec.CharsOptimizer
import Verif.Spec.JsonText

/-!
Specification of the file that the optimizer over characters writes.
-/

namespace Tokens.Spec.Chars
open Tokens Tokens.Chars

/-- How a token is written in the file: an ext token as a number, every other token as its text. -/
inductive TokenEntry : CToken → Json → Prop where
  | ext (n : Nat) : TokenEntry (.ext n) (.num n)
  | text {t : CToken} {s : Text} (h : t.text = some s) : TokenEntry t (.str s)

/-- The tokens with these numbers, as they are written in the file. -/
def Listed (ts : CSet) (e : List Nat) (js : List Json) : Prop :=
  List.Forall₂ (fun i j => ∃ t, ts.tokens[i]? = some t ∧ TokenEntry t j) e js

/-- What the file says: the tokens in order; the encoding of every character that is written with two tokens or more, and
nothing else; the number of tokens of the set, and of the samples. -/
structure Describes (v : Json) (ts : CSet) (total initialSize : Nat) : Prop where
  kind : v.get? "type" = some (.str "chars".toList)
  tokens : ∃ js, v.get? "tokens" = some (.arr js) ∧ List.Forall₂ TokenEntry ts.tokens js
  encodings : ∃ l, v.get? "encodings" = some (.obj l) ∧ (l.map Prod.fst).Nodup ∧
    ∀ k x, (k, x) ∈ l ↔ ∃ c e js, k = [c] ∧ encOf ts c = some e ∧ 2 ≤ e.length ∧ x = .arr js ∧ Listed ts e js
  stats : ∃ s, v.get? "stats" = some s ∧ s.get? "ntokens" = some (.num ts.tokens.length) ∧
    s.get? "total_tokens" = some (.num total) ∧ s.get? "initial_size" = some (.num initialSize)

end Tokens.Spec.Chars
