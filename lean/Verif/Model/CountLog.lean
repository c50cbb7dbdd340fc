import Verif.Model.Main
import Verif.Model.Show

/-!
`count_chars` of `/repo/src/main.rs:54-103` with everything it prints.
-/

namespace Tokens
namespace Main
open Input Show

/-- `char::escape_debug` as used by `Debug for char`: as in a string (`Show.debugChar`), but the single
quote is escaped and the double quote is not. -/
def escapeCharLit (plain : Char → Bool) (c : Char) : Text :=
  if c = '\'' then ['\\', '\'']
  else if c = '"' then ['"']
  else debugChar plain c

/-- `format!("{:?}", c)` of a character. -/
def debugCharLit (plain : Char → Bool) (c : Char) : Text := '\'' :: (escapeCharLit plain c ++ ['\''])

/-- `std::char::from_u32`. -/
def charFromU32 (n : Nat) : Option Char := if n.isValidChar then some (Char.ofNat n) else none

/-- src/main.rs:70-76: the number of characters read so far is printed when a billion is passed. -/
def progressLine (total next : Nat) : Text :=
  if total / 1000000000 ≠ next / 1000000000 then Nat.toDigits 10 next ++ ['\n'] else []

/-- src/main.rs:64-86: the loop over the lines: what is printed, and the counters (or the panic). -/
def countLinesT (s : CharCounts) : List Bytes → Text × R CharCounts
  | [] => ([], .ok s)
  | l :: ls =>
    match utf8Decode l with
    | none => ([], .error .panic)
    | some line =>
      match countLine s.low s.counts line with
      | .error e => (progressLine s.total (s.total + line.length), .error e)
      | .ok (low, counts) =>
        let rest := countLinesT ⟨s.total + line.length, low, counts⟩ ls
        (progressLine s.total (s.total + line.length) ++ rest.1, rest.2)

/-- src/main.rs:89-93: the lines for the characters below 256; `c` is the number of the next one. -/
def lowLines (plain : Char → Bool) (c : Nat) : List Nat → R Text
  | [] => .ok []
  | count :: rest =>
    if count > 0 then do
      let ch ← unwrapR (charFromU32 c)
      let others ← lowLines plain (c + 1) rest
      .ok (debugCharLit plain ch ++ [' '] ++ Nat.toDigits 10 count ++ ['\n'] ++ others)
    else lowLines plain (c + 1) rest

/-- src/main.rs:54-103 `count_chars`: what is printed, and whether it panics.  (If a character below 256
could not be printed, the lines before it would be missing here; `unwrap` at line 91 never fails.) -/
def countCharsT (plain : Char → Bool) (order : List Nat → List Nat) (file : Bytes) : Text × R Unit :=
  let loop := countLinesT ⟨0, List.replicate 256 0, []⟩ (splitLines file)
  match loop.2 with
  | .error e => (loop.1, .error e)
  | .ok s =>
    let out := loop.1 ++ ['T', 'o', 't', 'a', 'l', ':', ' '] ++ Nat.toDigits 10 s.total ++ ['\n']
    match lowLines plain 0 s.low with
    | .error e => (out, .error e)
    | .ok low =>
      match charFromU32 (maxKey (order (s.counts.map Prod.fst))) with
      | none => (out ++ low, .error .unwrapNone)
      | some c =>
        (out ++ low ++ ['M', 'a', 'x', ' ', 'c', 'h', 'a', 'r', ':', ' '] ++ debugCharLit plain c ++ ['\n'], .ok ())

end Main
end Tokens
