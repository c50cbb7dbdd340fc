import Verif.Model.Prelude

/-! The lines of a file, for C83. -/

namespace Tokens
namespace Spec

/-- `LinesOf data ls`: `ls` are the lines of `data`, each with its newline; the last one may have none. -/
inductive LinesOf : Bytes → List Bytes → Prop where
  | empty : LinesOf [] []
  | last {l : Bytes} (hne : l ≠ []) (h : (10 : UInt8) ∉ l) : LinesOf l [l]
  | line {l rest : Bytes} {ls : List Bytes} (h : (10 : UInt8) ∉ l) (hr : LinesOf rest ls) :
      LinesOf (l ++ 10 :: rest) ((l ++ [10]) :: ls)

end Spec
end Tokens
