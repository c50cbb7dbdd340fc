import Verif.Model.Log

/-! What the console output of the optimizer is read for. -/

namespace Tokens
namespace Spec
open Optimize

/-- The tokens of a reader who starts with the tokens `S` and follows the exchanges that were printed:
takes away what is left of the arrow (tokens of the first set that are not in the second) and adds what is
right of it. -/
def follow (S : Token → Prop) : List Printed → Token → Prop
  | [] => S
  | .change a b :: l =>
    follow (fun t => (S t ∧ ¬ (t ∈ a.tokens ∧ t ∉ b.tokens)) ∨ (t ∈ b.tokens ∧ t ∉ a.tokens)) l
  | .initial _ _ :: l => follow S l
  | .rate _ :: l => follow S l
  | .removing :: l => follow S l
  | .tried _ :: l => follow S l
  | .newline :: l => follow S l
  | .writing _ :: l => follow S l

/-- The texts named after "Removing:", in the order they were printed. -/
def tries : List Printed → List Bytes
  | [] => []
  | .tried s :: l => s :: tries l
  | .change _ _ :: l => tries l
  | .initial _ _ :: l => tries l
  | .rate _ :: l => tries l
  | .removing :: l => tries l
  | .newline :: l => tries l
  | .writing _ :: l => tries l

/-- The statistics whose rates were printed ("processed bytes / token"), in the order they were printed. -/
def rates : List Printed → List TokenStats
  | [] => []
  | .rate st :: l => st :: rates l
  | .tried _ :: l => rates l
  | .change _ _ :: l => rates l
  | .initial _ _ :: l => rates l
  | .removing :: l => rates l
  | .newline :: l => rates l
  | .writing _ :: l => rates l

/-- The output consists of whole lines; texts are named in lines that begin with "Removing:" and nowhere
else. -/
inductive Blocks : List Printed → Prop where
  | nil : Blocks []
  | initial {n st l} (h : Blocks l) : Blocks (.initial n st :: l)
  | change {a b l} (h : Blocks l) : Blocks (.change a b :: l)
  | rate {st l} (h : Blocks l) : Blocks (.rate st :: l)
  | writing {ts l} (h : Blocks l) : Blocks (.writing ts :: l)
  | removing {tr : List Bytes} {l : List Printed} (h : Blocks l) : Blocks (.removing :: (tr.map .tried ++ .newline :: l))

/-- The lines of a text, without their ends; what comes after the last end is left out. -/
def fullLines : Text → Text → List Text
  | _, [] => []
  | acc, c :: t => if c = '\n' then acc.reverse :: fullLines [] t else fullLines (c :: acc) t

/-- Whether a line shows an exchange, by its first character. -/
def showsExchange : Text → Bool
  | [] => false
  | c :: _ => c = ' ' || c = '"' || c = '[' || c.isDigit

/-- The tokens after exchanges, each given by the tokens that are taken away and the ones that are added. -/
def exchanged (S : Token → Prop) : List (List Token × List Token) → Token → Prop
  | [] => S
  | e :: l => exchanged (fun t => (S t ∧ t ∉ e.1) ∨ t ∈ e.2) l

/-- The line of an exchange. -/
def exchangeLine (plain : Char → Bool) (e : List Token × List Token) : Text :=
  Show.joined [' '] (e.1.map (Show.showToken plain)) ++ [' ', '-', '>', ' '] ++
    Show.joined [' '] (e.2.map (Show.showToken plain))

/-- Numbers are written without line breaks, and so are the paths of files whose names have none. -/
structure OneLine (sty : Style) : Prop where
  float : ∀ x, '\n' ∉ sty.float x
  path : ∀ x, '\n' ∉ x → '\n' ∉ sty.path x

end Spec
end Tokens
