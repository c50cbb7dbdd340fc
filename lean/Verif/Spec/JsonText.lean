import Verif.Model.Json
import Mathlib.Data.List.Dedup
import Mathlib.Data.List.Lex
import Mathlib.Data.Char

/-!
Specification of JSON texts (RFC 8259): which texts denote which values, independent of any reader
or writer.  Only the data type `Json` is used; `float` stands for a number that is written with a
fraction or an exponent (or as `-0`, which is no integer), and keeps its text.
-/

namespace Tokens.Spec
open Tokens

/-- White space. -/
def Ws (t : Text) : Prop := ∀ c ∈ t, c = ' ' ∨ c = '\n' ∨ c = '\t' ∨ c = '\r'

/-- The value of a hexadecimal digit. -/
def hexValue : Char → Option Nat
  | '0' => some 0 | '1' => some 1 | '2' => some 2 | '3' => some 3
  | '4' => some 4 | '5' => some 5 | '6' => some 6 | '7' => some 7
  | '8' => some 8 | '9' => some 9
  | 'a' => some 10 | 'b' => some 11 | 'c' => some 12 | 'd' => some 13 | 'e' => some 14 | 'f' => some 15
  | 'A' => some 10 | 'B' => some 11 | 'C' => some 12 | 'D' => some 13 | 'E' => some 14 | 'F' => some 15
  | _ => none

/-- The text `a b c d` is the hexadecimal notation of `n`. -/
def Hex4 (a b c d : Char) (n : Nat) : Prop :=
  ∃ w x y z, hexValue a = some w ∧ hexValue b = some x ∧ hexValue c = some y ∧ hexValue d = some z ∧
    n = w * 4096 + x * 256 + y * 16 + z

/-- The two-character escapes: letter and character. -/
def shortEscapes : List (Char × Char) :=
  [('"', '"'), ('\\', '\\'), ('/', '/'), ('b', Char.ofNat 8), ('f', Char.ofNat 12),
   ('n', '\n'), ('r', '\r'), ('t', '\t')]

/-- What stands between the quotes of a string, and the string. -/
inductive Chars : Text → Text → Prop
  | nil : Chars [] []
  | plain {c t s} : 32 ≤ c.toNat → c ≠ '"' → c ≠ '\\' → Chars t s → Chars (c :: t) (c :: s)
  | short {x c t s} : (x, c) ∈ shortEscapes → Chars t s → Chars ('\\' :: x :: t) (c :: s)
  | hex {a b c d n t s} : Hex4 a b c d n → n < 0xD800 ∨ 0xE000 ≤ n → Chars t s →
      Chars ('\\' :: 'u' :: a :: b :: c :: d :: t) (Char.ofNat n :: s)
  | pair {a b c d n a' b' c' d' m t s} : Hex4 a b c d (0xD800 + n) → n < 0x400 →
      Hex4 a' b' c' d' (0xDC00 + m) → m < 0x400 → Chars t s →
      Chars ('\\' :: 'u' :: a :: b :: c :: d :: '\\' :: 'u' :: a' :: b' :: c' :: d' :: t)
        (Char.ofNat (0x10000 + n * 0x400 + m) :: s)

/-- One or more digits. -/
def Digits (t : Text) : Prop := t ≠ [] ∧ ∀ c ∈ t, c.isDigit = true

/-- A number with a fraction or an exponent. -/
def FloatText (t : Text) : Prop :=
  ∃ sign int frac exp : Text, t = sign ++ int ++ frac ++ exp ∧ frac ++ exp ≠ [] ∧
    (sign = [] ∨ sign = ['-']) ∧
    (int = ['0'] ∨ Digits int ∧ int.head? ≠ some '0') ∧
    (frac = [] ∨ ∃ ds, Digits ds ∧ frac = '.' :: ds) ∧
    (exp = [] ∨ ∃ e s ds, (e = 'e' ∨ e = 'E') ∧ (s = [] ∨ s = ['+'] ∨ s = ['-']) ∧ Digits ds ∧
      exp = e :: (s ++ ds))

mutual
/-- The text (without white space around it) denotes the value. -/
inductive Denotes : Text → Json → Prop
  | null : Denotes "null".toList .null
  | true : Denotes "true".toList (.bool Bool.true)
  | false : Denotes "false".toList (.bool Bool.false)
  | int (n : Int) : Denotes (toString n).toList (.num n)
  | negZero : Denotes "-0".toList (.float "-0".toList)
  | float {t} : FloatText t → Denotes t (.float t)
  | str {t s} : Chars t s → Denotes ('"' :: (t ++ ['"'])) (.str s)
  | emptyArr {w} : Ws w → Denotes ('[' :: (w ++ [']'])) (.arr [])
  | arr {t l} : Elements t l → Denotes ('[' :: (t ++ [']'])) (.arr l)
  | emptyObj {w} : Ws w → Denotes ('{' :: (w ++ ['}'])) (.obj [])
  | obj {t l} : Members t l → Denotes ('{' :: (t ++ ['}'])) (.obj l)
/-- One or more elements, separated by commas. -/
inductive Elements : Text → List Json → Prop
  | one {w t w' v} : Ws w → Denotes t v → Ws w' → Elements (w ++ (t ++ w')) [v]
  | cons {w t w' v t' l} : Ws w → Denotes t v → Ws w' → Elements t' l →
      Elements (w ++ (t ++ (w' ++ ',' :: t'))) (v :: l)
/-- One or more members, separated by commas, in the order of the text. -/
inductive Members : Text → List (Text × Json) → Prop
  | one {w k s w₁ w₂ t w' v} : Ws w → Chars k s → Ws w₁ → Ws w₂ → Denotes t v → Ws w' →
      Members (w ++ ('"' :: (k ++ '"' :: (w₁ ++ ':' :: (w₂ ++ (t ++ w')))))) [(s, v)]
  | cons {w k s w₁ w₂ t w' v t' l} : Ws w → Chars k s → Ws w₁ → Ws w₂ → Denotes t v → Ws w' →
      Members t' l →
      Members (w ++ ('"' :: (k ++ '"' :: (w₁ ++ ':' :: (w₂ ++ (t ++ (w' ++ ',' :: t'))))))) ((s, v) :: l)
end

/-- A JSON text: a value with white space around it. -/
def JsonText (t : Text) (v : Json) : Prop := ∃ w t' w', Ws w ∧ Ws w' ∧ t = w ++ (t' ++ w') ∧ Denotes t' v

/-- Values a `serde_json::Value` can hold: integers fit into `i64` or `u64`, the members of objects
are in the order of their keys without repetition; nested at most `d` deep. -/
inductive Storable : Nat → Json → Prop
  | null (d) : Storable d .null
  | bool (d b) : Storable d (.bool b)
  | num (d n) : -2 ^ 63 ≤ n → n < 2 ^ 64 → Storable d (.num n)
  | float (d t) : FloatText t → Storable d (.float t)
  | str (d s) : Storable d (.str s)
  | arr (d l) : (∀ v ∈ l, Storable d v) → Storable (d + 1) (.arr l)
  | obj (d l) : (l.map Prod.fst).Pairwise (· < ·) → (∀ m ∈ l, Storable d m.2) → Storable (d + 1) (.obj l)

mutual
/-- How deep the arrays and objects of a value are nested. -/
def depth : Json → Nat
  | .arr l => depthArr l + 1
  | .obj l => depthObj l + 1
  | _ => 0
/-- The greatest depth of the elements. -/
def depthArr : List Json → Nat
  | [] => 0
  | v :: l => max (depth v) (depthArr l)
/-- The greatest depth of the members. -/
def depthObj : List (Text × Json) → Nat
  | [] => 0
  | (_, v) :: l => max (depth v) (depthObj l)
end

/-- Members by key, in the order of the keys; of several members with the same key the last one
counts. -/
def byKey (l : List (Text × Json)) : List (Text × Json) :=
  ((l.map Prod.fst).dedup.mergeSort (fun a b => decide (a ≤ b))).map
    (fun k => (k, (l.reverse.lookup k).getD .null))

mutual
/-- The value as a `serde_json::Value` holds it: integers that are neither `i64` nor `u64` are floating
point numbers, and the members of objects are arranged by key. -/
def stored : Json → Json
  | .num n => if -2 ^ 63 ≤ n ∧ n < 2 ^ 64 then .num n else .float (toString n).toList
  | .arr l => .arr (storedArr l)
  | .obj l => .obj (byKey (storedObj l))
  | v => v
/-- The elements of an array. -/
def storedArr : List Json → List Json
  | [] => []
  | v :: l => stored v :: storedArr l
/-- The members of an object. -/
def storedObj : List (Text × Json) → List (Text × Json)
  | [] => []
  | (k, v) :: l => (k, stored v) :: storedObj l
end

/-- How a floating point number is written: not at all (infinities and the like), or with a fraction
or an exponent. -/
def RatioText (ratio : Nat → Nat → Json) : Prop :=
  ∀ a b, ratio a b = .null ∨ ∃ t, FloatText t ∧ ratio a b = .float t

/-- The numbers of the statistics that are saved fit into 64 bits. -/
structure Fits64 (st : TokenStats) : Prop where
  ntokens : st.tokenSet.tokens.length < 2 ^ 64
  scanned : st.scannedBytes < 2 ^ 64
  total : st.totalTokens < 2 ^ 64
  initial : ∀ n, st.initialSize = some n → n < 2 ^ 64

mutual
/-- The value with the floating point numbers rewritten by `fl`. -/
def refloat (fl : Text → Text) : Json → Json
  | .null => .null
  | .bool b => .bool b
  | .num n => .num n
  | .float t => .float (fl t)
  | .str s => .str s
  | .arr l => .arr (refloatArr fl l)
  | .obj l => .obj (refloatObj fl l)
/-- The elements of an array. -/
def refloatArr (fl : Text → Text) : List Json → List Json
  | [] => []
  | j :: js => refloat fl j :: refloatArr fl js
/-- The members of an object. -/
def refloatObj (fl : Text → Text) : List (Text × Json) → List (Text × Json)
  | [] => []
  | (k, j) :: js => (k, refloat fl j) :: refloatObj fl js
end

end Tokens.Spec
