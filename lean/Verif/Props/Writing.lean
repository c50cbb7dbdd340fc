import Verif.Proofs.Writing
import Verif.Proofs.Commands
import Verif.Spec.Words

/-!
# Property C78: what is left of the output when writing fails

`ProcessTo db input out r` (`Verif/Model/Writing.lean`): `process_file`, on the bytes `input`, may leave the
bytes `out` in its output file and end with the result `r`; the device may write in pieces of any size, and
fail at any moment.  `WriteFile b out r`: the same for the files written by `optimize` and `convert`.
`Processing.processFile` says what should be written (C21, C22).
-/

namespace Tokens.Props
open Tokens Writing Main Input Spec

set_option linter.unusedVariables false

/-- **C78** (the part that holds).  Whatever the device does, what `process` leaves is a beginning of the
processed text.  After a panic, something is missing.  After a success at most the last 8192 bytes are
missing.  Missing: that nothing is, see `C78_violated`. -/
theorem C78_process_partial (db : CharTables) (text z : Text) (hz : Processing.processFile db text = .ok z)
    (out : Bytes) (r : R Unit) (h : ProcessTo db (utf8Encode text) out r) :
    ∃ lost, out ++ lost = utf8Encode z ∧ (r = .ok () → lost.length ≤ 8192) ∧ (r ≠ .ok () → lost ≠ []) := by
  have hf := processBytes_text db text z hz
  cases h with
  | @run s _ _ h hd =>
    obtain ⟨k1, k2, k3⟩ := loop_ok h (by simp) (full := utf8Encode z) (flag := true) hf
    cases hd with
    | @flush written left ok hp =>
      obtain ⟨e1, _⟩ := putAll_split hp
      have hlen := congrArg List.length e1
      rw [List.length_append] at hlen
      by_cases hr : r = .ok ()
      · refine ⟨left, ?_, fun _ => ?_, fun h => absurd hr h⟩
        · rw [← (k2 hr).2, ← e1]; simp
        · have : capacity = 8192 := rfl
          omega
      · obtain ⟨rest, e, hne⟩ := k3 hr
        refine ⟨left ++ rest, ?_, fun h => absurd h hr, fun _ => by simp [hne rfl]⟩
        rw [e, ← e1]; simp

/-- **C78** is violated: for every text that is not empty, `process` may report success although its output
is incomplete (the error occurs when the buffer is written out for the last time). -/
theorem C78_violated (db : CharTables) (text z : Text) (hne : text ≠ [])
    (hz : Processing.processFile db text = .ok z) :
    ∃ out, ProcessTo db (utf8Encode text) out (.ok ()) ∧ out ≠ utf8Encode z := by
  have hf := processBytes_text db text z hz
  obtain ⟨s, hs⟩ := loop_exists db (splitLines (utf8Encode text)) ⟨[], []⟩ hf
  have hlines : splitLines (utf8Encode text) ≠ [] := by
    intro e
    have := splitLines_flatten (utf8Encode text)
    rw [e] at this
    cases text with
    | nil => exact hne rfl
    | cons c t =>
      obtain ⟨f, x, k, _⟩ := char_shape c
      rw [utf8Encode_cons, k] at this
      simp at this
  have hbuf := loop_nonempty hs rfl (.inl hlines)
  obtain ⟨_, k2, _⟩ := loop_ok hs (by simp) (full := utf8Encode z) (flag := true) hf
  refine ⟨_, .run hs (.flush (.fail hbuf)), ?_⟩
  rw [← (k2 rfl).2, List.append_nil]
  intro e
  exact hbuf (by simpa using e.symm)

/-- **C78** is violated: if the output has less than 8192 bytes, any part of it, also nothing at all, may
be what is left after a success. -/
theorem C78_violated_any (db : CharTables) (text z : Text) (hz : Processing.processFile db text = .ok z)
    (hl : (utf8Encode z).length < 8192) (out lost : Bytes) (e : out ++ lost = utf8Encode z) :
    ProcessTo db (utf8Encode text) out (.ok ()) := by
  have hf := processBytes_text db text z hz
  have h := loop_buffered db _ [] _ hf hl
  have hp : ∃ ok, PutAll (utf8Encode z) out lost ok := by
    by_cases hn : lost = []
    · subst hn
      rw [List.append_nil] at e
      subst e
      exact ⟨_, putAll_all _⟩
    · rw [← e]; exact ⟨_, putAll_part out lost hn⟩
  obtain ⟨ok, hp⟩ := hp
  have := ProcessTo.run h (.flush hp)
  rwa [List.nil_append] at this

/-- **C78**.  A device that does not fail gets all of it, with success. -/
theorem C78_process_works (db : CharTables) (text z : Text) (hz : Processing.processFile db text = .ok z) :
    ProcessTo db (utf8Encode text) (utf8Encode z) (.ok ()) := by
  have hf := processBytes_text db text z hz
  obtain ⟨s, hs⟩ := loop_exists db (splitLines (utf8Encode text)) ⟨[], []⟩ hf
  obtain ⟨_, k2, _⟩ := loop_ok hs (by simp) (full := utf8Encode z) (flag := true) hf
  have := ProcessTo.run hs (.flush (putAll_all s.buf))
  rwa [(k2 rfl).2] at this

/-- **C78**.  Data that is not text is never reported as processed, whatever the device does. -/
theorem C78_not_text (db : CharTables) (input : Bytes) (hv : validUtf8 input = false) (out : Bytes) (r : R Unit)
    (h : ProcessTo db input out r) : r ≠ .ok () := by
  obtain ⟨ls, _, _, _, _, _, hb⟩ := processBytes_bad db input hv
  obtain ⟨z, hz⟩ := processFile_ok db (ls.flatMap (· ++ ['\n']))
  cases h with
  | run h _ =>
    obtain ⟨_, k2, _⟩ := loop_ok h (by simp) (full := utf8Encode z) (flag := false) (hb z hz)
    intro e
    have := (k2 e).1
    cases this

/-- **C78** (the other commands).  Files written by `optimize` and `convert`: what is left is a beginning of
the contents; success is reported if and only if it is all of them. -/
theorem C78_files (b out : Bytes) (r : R Unit) (h : WriteFile b out r) :
    out <+: b ∧ (r = .ok () ↔ out = b) := by
  cases h with
  | ok h =>
    obtain ⟨e, _⟩ := putAll_true h
    subst e
    exact ⟨List.prefix_rfl, by simp⟩
  | fail h =>
    obtain ⟨e1, e2⟩ := putAll_false h
    refine ⟨⟨_, e1⟩, ⟨fun e => (by cases e), fun e => ?_⟩⟩
    rw [e] at e1
    exact absurd (List.append_right_eq_self.1 e1) e2

/-- **C78**.  And each beginning may be what is left, so that the file may be torn (see C53, C57). -/
theorem C78_files_torn (out rest : Bytes) (hr : rest ≠ []) : WriteFile (out ++ rest) out (.error .unwrapNone) :=
  .fail (putAll_part out rest hr)

-- "Hi" is processed successfully, and nothing is in the file
example : ∃ z, Processing.processFile asciiOnly ['H', 'i'] = .ok z ∧ utf8Encode z ≠ [] ∧
    ProcessTo asciiOnly (utf8Encode ['H', 'i']) [] (.ok ()) := by
  have hz : Processing.processFile asciiOnly ['H', 'i'] = .ok ['\x14', 'h', 'i', '\x16', '\n'] := rfl
  exact ⟨_, hz, by decide, C78_violated_any _ _ _ hz (by decide) _ _ rfl⟩

end Tokens.Props
