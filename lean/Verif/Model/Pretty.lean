import Verif.Model.Json

/-!
Model of `/repo/pretty.py`, which rewrites a JSON file in a readable layout.  The reading of the file
(`json.load`) is left out: the functions are given the value.  `fl` is what Python writes for a floating
point number with the given text.
-/

namespace Tokens
namespace Pretty
open Json

mutual
/-- pretty.py:5, 30, 31: `json.dumps(data, indent=None, ensure_ascii=False)`.  The characters that are
escaped are the same as in Rust's `serde_json`. -/
def dumps (fl : Text → Text) : Json → Text
  | .null => "null".toList
  | .bool true => "true".toList
  | .bool false => "false".toList
  | .num n => renderInt n
  | .float t => fl t
  | .str s => renderStr s
  | .arr l => '[' :: dumpsArr fl true l
  | .obj l => '{' :: dumpsObj fl true l
/-- The elements and the closing bracket. -/
def dumpsArr (fl : Text → Text) : Bool → List Json → Text
  | _, [] => [']']
  | first, j :: js => (if first then [] else [',', ' ']) ++ (dumps fl j ++ dumpsArr fl false js)
/-- The members and the closing brace. -/
def dumpsObj (fl : Text → Text) : Bool → List (Text × Json) → Text
  | _, [] => ['}']
  | first, (k, j) :: js =>
    (if first then [] else [',', ' ']) ++
      (renderStr k ++ (':' :: ' ' :: (dumps fl j ++ dumpsObj fl false js)))
end

/-- pretty.py:16-19: the loop over the lines of an element; `last` is `last_line`.  The lines that are
yielded, and `last_line` after the loop. -/
def emit : Option Text → List Text → List Text × Option Text
  | last, [] => ([], last)
  | last, s :: ss =>
    let r := emit (some (' ' :: ' ' :: s)) ss
    (last.toList ++ r.1, r.2)

/-- pretty.py:37-42: the loop over the lines of a value with the key `key`. -/
def emitKey (key : Text) : Option Text → List Text → List Text × Option Text
  | last, [] => ([], last)
  | none, s :: ss => emitKey key (some (' ' :: ' ' :: (key ++ (':' :: ' ' :: s)))) ss
  | some l, s :: ss =>
    let r := emitKey key (some (' ' :: ' ' :: s)) ss
    (l :: r.1, r.2)

/-- pretty.py:13-15, 26-28: the line before a further element. -/
def comma : Option Text → List Text
  | none => []
  | some l => [l ++ [',']]

mutual
/-- pretty.py:4-46 `serialize`: the lines. -/
def serialize (fl : Text → Text) (maxlen : Int) : Json → List Text
  | .arr l =>
    if ((dumps fl (.arr l)).length : Int) ≤ maxlen then [dumps fl (.arr l)]
    else ['['] :: lines fl maxlen none l
  | .obj l =>
    if ((dumps fl (.obj l)).length : Int) ≤ maxlen then [dumps fl (.obj l)]
    else ['{'] :: fields fl maxlen none l
  | .null => [dumps fl .null]
  | .bool b => [dumps fl (.bool b)]
  | .num n => [dumps fl (.num n)]
  | .float t => [dumps fl (.float t)]
  | .str s => [dumps fl (.str s)]
/-- pretty.py:12-22: the elements of a list that are left, given `last_line`. -/
def lines (fl : Text → Text) (maxlen : Int) : Option Text → List Json → List Text
  | last, [] => last.toList ++ [[']']]
  | last, j :: js =>
    let r := emit none (serialize fl (maxlen - 2) j)
    comma last ++ r.1 ++ lines fl maxlen r.2 js
/-- pretty.py:25-45: the members of a dictionary that are left, given `last_line`. -/
def fields (fl : Text → Text) (maxlen : Int) : Option Text → List (Text × Json) → List Text
  | last, [] => last.toList ++ [['}']]
  | last, (k, j) :: js =>
    let short : Text := ' ' :: ' ' :: (renderStr k ++ (':' :: ' ' :: dumps fl j))
    let r : List Text × Option Text :=
      if (short.length : Int) ≤ maxlen + 1 then ([], some short)
      else emitKey (renderStr k) none (serialize fl (maxlen - 2) j)
    comma last ++ r.1 ++ fields fl maxlen r.2 js
end

/-- pretty.py:49-51 `save_json` and 57-58: the new contents of the file. -/
def pretty (fl : Text → Text) (v : Json) : Text :=
  (serialize fl 80 v).flatMap (fun line => line ++ ['\n'])

end Pretty
end Tokens
