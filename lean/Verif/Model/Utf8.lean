import Verif.Model.Prelude

/-!
Text and its UTF-8 bytes.  A Rust `String`/`&str` is modelled by its list of characters (Rust's
`char` is Lean's `Char`: a Unicode scalar value).  Encoding and decoding are those of the Lean core
library (`String.utf8EncodeChar`, `ByteArray.utf8Decode?`).
-/

namespace Tokens

/-- A Rust `String`/`&str` as its characters. -/
abbrev Text := List Char

/-- `str::as_bytes`. -/
def utf8Encode (cs : Text) : Bytes := cs.flatMap String.utf8EncodeChar

/-- `std::str::from_utf8` / `String::from_utf8`, `none` for invalid bytes. -/
def utf8Decode (b : Bytes) : Option Text := (ByteArray.mk b.toArray).utf8Decode?.map Array.toList

/-- Is this byte string valid UTF-8? -/
def validUtf8 (b : Bytes) : Bool := (utf8Decode b).isSome

/-! ### `String::from_utf8_lossy` -/

/-- `core::str::lossy`: the part `0x80..=0xBF`. -/
def isCont (b : UInt8) : Bool := decide (128 ≤ b.toNat) && decide (b.toNat ≤ 191)

/-- `core::str::lossy::Utf8Chunks::next`: the second bytes allowed after the first byte `b` of a
sequence of three. -/
def second3 (b c : UInt8) : Bool :=
  (b.toNat == 0xE0 && decide (0xA0 ≤ c.toNat) && decide (c.toNat ≤ 0xBF)) ||
  (decide (0xE1 ≤ b.toNat) && decide (b.toNat ≤ 0xEC) && isCont c) ||
  (b.toNat == 0xED && decide (0x80 ≤ c.toNat) && decide (c.toNat ≤ 0x9F)) ||
  (decide (0xEE ≤ b.toNat) && decide (b.toNat ≤ 0xEF) && isCont c)

/-- `core::str::lossy::Utf8Chunks::next`: the second bytes allowed after the first byte `b` of a
sequence of four. -/
def second4 (b c : UInt8) : Bool :=
  (b.toNat == 0xF0 && decide (0x90 ≤ c.toNat) && decide (c.toNat ≤ 0xBF)) ||
  (decide (0xF1 ≤ b.toNat) && decide (b.toNat ≤ 0xF3) && isCont c) ||
  (b.toNat == 0xF4 && decide (0x80 ≤ c.toNat) && decide (c.toNat ≤ 0x8F))

/-- `core::str::utf8_char_width`, for bytes from 128. -/
def charWidth (b : UInt8) : Nat :=
  if 0xC2 ≤ b.toNat ∧ b.toNat ≤ 0xDF then 2
  else if 0xE0 ≤ b.toNat ∧ b.toNat ≤ 0xEF then 3
  else if 0xF0 ≤ b.toNat ∧ b.toNat ≤ 0xF4 then 4
  else 0

/-- `core::str::lossy::Utf8Chunks::next`: one round of its loop, on a rest `s` of the bytes.  How many
bytes it reads, and whether they are a whole character (otherwise the loop is left and they are the
invalid part of the chunk).  Reading beyond the end gives 0 (`safe_get`). -/
def scanChar (s : Bytes) : Nat × Bool :=
  let b := s.getD 0 0
  if b.toNat < 128 then (1, true)
  else if charWidth b = 2 then
    if isCont (s.getD 1 0) then (2, true) else (1, false)
  else if charWidth b = 3 then
    if second3 b (s.getD 1 0) then
      if isCont (s.getD 2 0) then (3, true) else (2, false)
    else (1, false)
  else if charWidth b = 4 then
    if second4 b (s.getD 1 0) then
      if isCont (s.getD 2 0) then
        if isCont (s.getD 3 0) then (4, true) else (3, false)
      else (2, false)
    else (1, false)
  else (1, false)

theorem scanChar_pos (s : Bytes) : 0 < (scanChar s).1 := by
  unfold scanChar
  simp only
  repeat' split
  all_goals simp

/-- U+FFFD, the replacement character. -/
def replacement : Bytes := [0xEF, 0xBF, 0xBD]

/-- `String::from_utf8_lossy`: the valid parts of the chunks, with a replacement character for every
invalid part.  (The chunks are not kept apart: a chunk is a run of whole characters and the invalid part
after it.) -/
def fromUtf8Lossy (s : Bytes) : Bytes :=
  if h : s = [] then []
  else
    let r := scanChar s
    (if r.2 then s.take r.1 else replacement) ++ fromUtf8Lossy (s.drop r.1)
termination_by s.length
decreasing_by
  have h1 := scanChar_pos s
  have h2 := List.length_pos_iff.2 h
  rw [List.length_drop]
  omega

end Tokens
