import Verif.Props.TextSize
import Verif.Props.Disk

/-!
# Property C109: how large a processed file is, on the disk
-/

namespace Tokens.Props
open Tokens Spec TokenSet Optimize Batch Main Input Disk

set_option linter.unusedVariables false

theorem process_writes {m : Machine} (hnl : m.db.isAlphabetic '\n' = false) {d : Files} {data output : Text}
    {text : Text} (hdata : d.read data = some (utf8Encode text)) (hne : output ≠ data)
    (hc : d.creatable output = true) {z : Text} (hz : Processing.processFile m.db text = .ok z)
    {o : R Unit × List (Text × Bytes)} (h : Exec m d (.process data output) o) :
    o = (.ok (), [(output, utf8Encode z)]) := by
  obtain ⟨out, h1, h2, _⟩ := C60_process m hnl d data output text hdata hne hc
  obtain ⟨z', h3, h4⟩ := Processing.processFile_eq hnl text
  have e1 := Except.ok.inj (h3.symm.trans hz)
  have e2 := Except.ok.inj (h4.symm.trans h1)
  rw [← e1, e2]
  exact (h2 o).1 h

/-- **C109** (the command).  If the small letters take at most `num / den ≥ 1` times the bytes of the
capitals, then `process` succeeds and writes a file of at most `num / den` times the bytes of the data file
and a newline, and one byte for each of its characters. -/
theorem C109_command_at_most (m : Machine) (K : Char → Prop) (hnl : m.db.isAlphabetic '\n' = false)
    (hKn : K '\n') (num den : Nat) (hd : den ≤ num) (h : GrowsAtMost m.db K num den) (d : Files)
    (data output : Text) (text : List Char) (hdata : d.read data = some (utf8Encode text))
    (hne : output ≠ data) (hc : d.creatable output = true) (hK : ∀ c ∈ text, K c)
    (r : R Unit) (ws : List (Text × Bytes)) (he : Exec m d (.process data output) (r, ws)) :
    r = .ok () ∧ ∃ b, ws = [(output, b)] ∧
      den * b.length ≤ num * ((utf8Encode text).length + 1) + den * (text.length + 1) := by
  obtain ⟨z, h1, h2⟩ := C109_file_at_most m.db K hnl hKn num den hd h text hK
  have := process_writes hnl hdata hne hc h1 he
  exact ⟨congrArg Prod.fst this, _, congrArg Prod.snd this, h2⟩

/-- **C109** (the command).  Where small letters take as many bytes as capitals, `process` succeeds, and the
file it writes is at least as large as the data file without the `\r` of Windows line ends, and at most twice
as large as the data file and two bytes. -/
theorem C109_command (m : Machine) (K : Char → Prop) (hnl : m.db.isAlphabetic '\n' = false) (hKn : K '\n')
    (h : KeepsLength m.db K) (d : Files) (data output : Text) (text : List Char)
    (hdata : d.read data = some (utf8Encode text)) (hne : output ≠ data) (hc : d.creatable output = true)
    (hK : ∀ c ∈ text, K c) (r : R Unit) (ws : List (Text × Bytes))
    (he : Exec m d (.process data output) (r, ws)) :
    r = .ok () ∧ ∃ b, ws = [(output, b)] ∧ (utf8Encode (dropCR text)).length ≤ b.length ∧
      b.length ≤ 2 * (utf8Encode text).length + 2 := by
  obtain ⟨z, h1, h2, h3⟩ := C109_file m.db K hnl hKn h text hK
  have := process_writes hnl hdata hne hc h1 he
  exact ⟨congrArg Prod.fst this, _, congrArg Prod.snd this, h2, h3⟩

-- a file with Windows line ends, and a run
example : aMachine.db.isAlphabetic '\n' = false ∧ ∃ d : Files, ∃ o, d.read "data".toList = some (utf8Encode ['A', '\r', '\n', 'b']) ∧
    d.creatable "out".toList = true ∧ Exec aMachine d (.process "data".toList "out".toList) o := by
  refine ⟨by rfl, ⟨fun p => if p = "data".toList then some (utf8Encode ['A', '\r', '\n', 'b']) else none, fun _ => true⟩, ?_⟩
  obtain ⟨out, h1, h2, _⟩ := C60_process aMachine (by rfl)
    ⟨fun p => if p = "data".toList then some (utf8Encode ['A', '\r', '\n', 'b']) else none, fun _ => true⟩
    "data".toList "out".toList ['A', '\r', '\n', 'b'] (by simp) (by decide) rfl
  exact ⟨_, by simp, rfl, (h2 _).2 rfl⟩

end Tokens.Props
