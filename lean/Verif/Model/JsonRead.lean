import Verif.Model.Main

/-!
Model of reading a JSON file: `serde_json::from_reader` into a `Value`, as called by
`read_token_set` (src/main.rs:105-113), and that function itself.
-/

namespace Tokens
namespace JsonRead

/-- JSON white space. -/
def isWs (c : Char) : Bool := c = ' ' || c = '\n' || c = '\t' || c = '\r'

/-- Skips white space. -/
def skipWs (t : Text) : Text := t.dropWhile isWs

/-- The rest of the text after the expected characters. -/
def expect : Text → Text → Option Text
  | [], t => some t
  | c :: cs, d :: t => if c = d then expect cs t else none
  | _ :: _, [] => none

/-- One hexadecimal digit, upper or lower case. -/
def hexDigit? (c : Char) : Option Nat :=
  if '0' ≤ c ∧ c ≤ '9' then some (c.toNat - 48)
  else if 'a' ≤ c ∧ c ≤ 'f' then some (c.toNat - 87)
  else if 'A' ≤ c ∧ c ≤ 'F' then some (c.toNat - 55)
  else none

/-- Four hexadecimal digits. -/
def hex4 (a b c d : Char) : Option Nat :=
  match hexDigit? a, hexDigit? b, hexDigit? c, hexDigit? d with
  | some a, some b, some c, some d => some (((a * 16 + b) * 16 + c) * 16 + d)
  | _, _, _, _ => none

/-- The character after a backslash, other than `u`. -/
def unescape (c : Char) : Option Char :=
  if c = '"' then some '"'
  else if c = '\\' then some '\\'
  else if c = '/' then some '/'
  else if c = 'b' then some (Char.ofNat 8)
  else if c = 'f' then some (Char.ofNat 12)
  else if c = 'n' then some (Char.ofNat 10)
  else if c = 'r' then some (Char.ofNat 13)
  else if c = 't' then some (Char.ofNat 9)
  else none

/-- serde_json's reading of a string after the opening quote: its value and the text after the
closing quote.  Unescaped control characters and lone surrogates are errors. -/
def readStr : Text → Option (Text × Text)
  | [] => none
  | '"' :: r => some ([], r)
  | '\\' :: 'u' :: a :: b :: c :: d :: r =>
    match hex4 a b c d with
    | none => none
    | some n =>
      if 0xD800 ≤ n ∧ n ≤ 0xDBFF then
        match r with
        | '\\' :: 'u' :: a' :: b' :: c' :: d' :: r' =>
          match hex4 a' b' c' d' with
          | none => none
          | some m =>
            if 0xDC00 ≤ m ∧ m ≤ 0xDFFF then
              (readStr r').map (fun p =>
                (Char.ofNat (0x10000 + (n - 0xD800) * 0x400 + (m - 0xDC00)) :: p.1, p.2))
            else none
        | _ => none
      else if 0xDC00 ≤ n ∧ n ≤ 0xDFFF then none
      else (readStr r).map (fun p => (Char.ofNat n :: p.1, p.2))
  | '\\' :: x :: r =>
    match unescape x with
    | none => none
    | some c => (readStr r).map (fun p => (c :: p.1, p.2))
  | c :: r =>
    if c.toNat < 32 ∨ c = '\\' then none else (readStr r).map (fun p => (c :: p.1, p.2))

/-- The integer part of a number: no leading zeros. -/
def readInt : Text → Option (Text × Text)
  | [] => none
  | c :: r =>
    if c = '0' then
      match r with
      | [] => some (['0'], [])
      | d :: r' => if d.isDigit then none else some (['0'], d :: r')
    else if c.isDigit then some ((c :: r).takeWhile Char.isDigit, (c :: r).dropWhile Char.isDigit)
    else none

/-- The fraction, if there is one. -/
def readFrac : Text → Option (Text × Text)
  | [] => some ([], [])
  | c :: r =>
    if c = '.' then
      let ds := r.takeWhile Char.isDigit
      if ds.isEmpty then none else some ('.' :: ds, r.dropWhile Char.isDigit)
    else some ([], c :: r)

/-- The sign of an exponent. -/
def readSign : Text → Text × Text
  | [] => ([], [])
  | c :: r => if c = '+' ∨ c = '-' then ([c], r) else ([], c :: r)

/-- The exponent, if there is one. -/
def readExp : Text → Option (Text × Text)
  | [] => some ([], [])
  | c :: r =>
    if c = 'e' ∨ c = 'E' then
      let s := readSign r
      let ds := s.2.takeWhile Char.isDigit
      if ds.isEmpty then none else some (c :: (s.1 ++ ds), s.2.dropWhile Char.isDigit)
    else some ([], c :: r)

/-- A number.  Integers outside the ranges of `i64` and `u64`, and `-0`, become floating-point
numbers.  The model keeps the text of a floating-point number instead of its value, and does not
have serde's error for numbers too large for an `f64`. -/
def readNumber (t : Text) : Option (Json × Text) :=
  let neg := t.head? = some '-'
  let t1 := if neg then t.tail else t
  let sg : Text := if neg then ['-'] else []
  match readInt t1 with
  | none => none
  | some (ip, t2) =>
    match readFrac t2 with
    | none => none
    | some (fp, t3) =>
      match readExp t3 with
      | none => none
      | some (ep, t4) =>
        if fp.isEmpty ∧ ep.isEmpty then
          let n := Nat.ofDigitChars 10 ip 0
          if neg then
            if n ≠ 0 ∧ n ≤ 2 ^ 63 then some (.num (-(n : Int)), t4) else some (.float (sg ++ ip), t4)
          else if n < 2 ^ 64 then some (.num n, t4) else some (.float ip, t4)
        else some (.float (sg ++ ip ++ fp ++ ep), t4)

/-- `BTreeMap::insert`: the members stay in the order of their keys; a later member replaces an
earlier one with the same key.  (Rust compares the UTF-8 bytes of the keys, which is the same as
comparing their code points.) -/
def insertKey (k : Text) (v : Json) : List (Text × Json) → List (Text × Json)
  | [] => [(k, v)]
  | (k', v') :: l =>
    if k < k' then (k, v) :: (k', v') :: l
    else if k = k' then (k, v) :: l
    else (k', v') :: insertKey k v l

mutual
/-- A value; white space before it has been skipped.  The first argument bounds the number of calls;
the second is serde's `remaining_depth`. -/
def value : Nat → Nat → Text → Option (Json × Text)
  | 0, _, _ => none
  | _ + 1, _, [] => none
  | f + 1, d, c :: r =>
    if c = '"' then (readStr r).map (fun p => (.str p.1, p.2))
    else if c = '[' then
      if d ≤ 1 then none
      else
        match skipWs r with
        | [] => none
        | e :: r' => if e = ']' then some (.arr [], r') else elements f (d - 1) [] (e :: r')
    else if c = '{' then
      if d ≤ 1 then none
      else
        match skipWs r with
        | [] => none
        | e :: r' => if e = '}' then some (.obj [], r') else members f (d - 1) [] (e :: r')
    else if c = 'n' then (expect ['u', 'l', 'l'] r).map (fun r' => (.null, r'))
    else if c = 't' then (expect ['r', 'u', 'e'] r).map (fun r' => (.bool true, r'))
    else if c = 'f' then (expect ['a', 'l', 's', 'e'] r).map (fun r' => (.bool false, r'))
    else readNumber (c :: r)
/-- The elements of an array; `acc` are those read already. -/
def elements : Nat → Nat → List Json → Text → Option (Json × Text)
  | 0, _, _, _ => none
  | f + 1, d, acc, t =>
    match value f d t with
    | none => none
    | some (v, r) =>
      match skipWs r with
      | [] => none
      | c :: r' =>
        if c = ',' then elements f d (acc ++ [v]) (skipWs r')
        else if c = ']' then some (.arr (acc ++ [v]), r')
        else none
/-- The members of an object. -/
def members : Nat → Nat → List (Text × Json) → Text → Option (Json × Text)
  | 0, _, _, _ => none
  | _ + 1, _, _, [] => none
  | f + 1, d, acc, c :: r =>
    if c = '"' then
      match readStr r with
      | none => none
      | some (k, r1) =>
        match skipWs r1 with
        | [] => none
        | e :: r2 =>
          if e = ':' then
            match value f d (skipWs r2) with
            | none => none
            | some (v, r3) =>
              match skipWs r3 with
              | [] => none
              | e' :: r4 =>
                if e' = ',' then members f d (insertKey k v acc) (skipWs r4)
                else if e' = '}' then some (.obj (insertKey k v acc), r4)
                else none
          else none
    else none
end

/-- `serde_json::from_reader` into a `Value`: one value with nothing but white space after it, nested
fewer than 128 deep. -/
def parse (t : Text) : Option Json :=
  match value (2 * t.length + 2) 128 (skipWs t) with
  | none => none
  | some (v, r) => if (skipWs r).isEmpty then some v else none

/-- `serde_json::from_reader` on the bytes of a file; anything but UTF-8 is an error. -/
def parseBytes (b : Bytes) : Option Json :=
  match utf8Decode b with
  | none => none
  | some t => parse t

end JsonRead

/-- src/main.rs:105-113 `read_token_set`, given the contents of the file. -/
def readTokenSet (file : Bytes) : R TokenSet := do
  let v ← unwrapR (JsonRead.parseBytes file)
  TokenSet.fromJson v

end Tokens
