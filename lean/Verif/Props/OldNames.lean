import Verif.Model.OldNames
import Verif.Spec.Disk
import Verif.Proofs.Json2
import Verif.Proofs.Disk

/-!
# Property C136: names of the files of the first generation

Read together with `Verif/Model/OldNames.lean`: `fileName` is the name of the file for a number of tokens, a processing
and an encoding of literals; `savePath` is the path that `optimize_all` writes, `loadPath` the one that
`load_prev_token_set` reads.  `Files.read` says what is in the file at a path, `Files.write` writes one.
-/

namespace Tokens.Props
open Tokens Old Disk Spec

/-! ### Proofs -/

theorem last_underscore {p q e f : Text} (he : '_' ∉ e) (hf : '_' ∉ f) (h : p ++ '_' :: e = q ++ '_' :: f) :
    p = q ∧ e = f := by
  rcases List.append_eq_append_iff.1 h with ⟨a, h1, h2⟩ | ⟨a, h1, h2⟩
  · cases a with
    | nil => simp at h1 h2; exact ⟨h1.symm, h2⟩
    | cons c a =>
      simp only [List.cons_append, List.cons.injEq] at h2
      exact absurd (by rw [h2.2]; simp) he
  · cases a with
    | nil => simp at h1 h2; exact ⟨h1, h2.symm⟩
    | cons c a =>
      simp only [List.cons_append, List.cons.injEq] at h2
      exact absurd (by rw [h2.2]; simp) hf

theorem display_plain (le : LiteralEncoding) : '_' ∉ le.display := by cases le <;> decide

theorem display_inj {a b : LiteralEncoding} (h : a.display = b.display) : a = b := by
  revert h; cases a <;> cases b <;> decide

theorem fileName_inj {n n' : Nat} {p p' : Text} {le le' : LiteralEncoding} (h : fileName n p le = fileName n' p' le') :
    n = n' ∧ p = p' ∧ le = le' := by
  unfold fileName at h
  have h := List.append_cancel_right h
  simp only [List.append_assoc, List.append_cancel_left_eq] at h
  have nd : ∀ t : Text, Json.NoDigit (['_'] ++ t) := by intro t c hc; simp at hc; subst hc; rfl
  obtain ⟨h1, h2⟩ := Json.digits_split _ _ _ _ (nd _) (nd _) h
  simp only [List.append_cancel_left_eq] at h2
  obtain ⟨h3, h4⟩ := last_underscore (display_plain _) (display_plain _) h2
  exact ⟨h1, h3, display_inj h4⟩

theorem loadPath_eq (dir : Text) (n : Nat) (p : Text) (le : LiteralEncoding) :
    loadPath dir n p le = dir ++ '/' :: fileName n p le := by
  unfold loadPath fileName
  simp

theorem savePath_eq {dir : Text} (h1 : dir ≠ []) (h2 : dir.getLast? ≠ some '/') (n : Nat) (p : Text)
    (le : LiteralEncoding) : savePath dir n p le = dir ++ '/' :: fileName n p le := by
  unfold savePath joinPath
  rw [if_neg (by rintro (h | h); exacts [h1 h, h2 h])]

/-! ### Theorems -/

/-- **C136** (names).  Files have the same name exactly for the same number of tokens, processing and encoding, whatever
the text for the processing is. -/
theorem C136_name_iff (n n' : Nat) (p p' : Text) (le le' : LiteralEncoding) :
    fileName n p le = fileName n' p' le' ↔ n = n' ∧ p = p' ∧ le = le' := by
  constructor
  · exact fileName_inj
  · rintro ⟨rfl, rfl, rfl⟩; rfl

/-- **C136** (saving and loading).  In a directory given by a text that is not empty and has no slash at its end, a file
that was written is found again for the same number of tokens, processing and encoding; and for all others, what was
found before is found again. -/
theorem C136_saved_is_found (d : Files) (dir : Text) (hdir : dir ≠ []) (hslash : dir.getLast? ≠ some '/') (b : Bytes)
    (n : Nat) (p : Text) (le : LiteralEncoding) :
    (d.write (savePath dir n p le) b).read (loadPath dir n p le) = some b ∧
    ∀ n' p' le', (n', p', le') ≠ (n, p, le) →
      (d.write (savePath dir n p le) b).read (loadPath dir n' p' le') = d.read (loadPath dir n' p' le') := by
  rw [savePath_eq hdir hslash]
  unfold Files.write
  refine ⟨by rw [loadPath_eq]; simp, ?_⟩
  intro n' p' le' h
  simp only
  rw [if_neg]
  rw [loadPath_eq]
  intro e
  have e := (List.cons.inj (List.append_cancel_left e)).2
  obtain ⟨rfl, rfl, rfl⟩ := fileName_inj e
  exact h rfl

/-- **C136** (a slash at the end).  If the text for the directory ends in a slash, the path that is read is the one that
is written but for a second slash between the directory and the name. -/
theorem C136_slash (dir : Text) (hslash : dir.getLast? = some '/') (n : Nat) (p : Text) (le : LiteralEncoding) :
    savePath dir n p le = dir ++ fileName n p le ∧ loadPath dir n p le = dir ++ '/' :: fileName n p le := by
  refine ⟨?_, loadPath_eq _ _ _ _⟩
  unfold savePath joinPath
  rw [if_pos (.inr hslash)]

/-- **C136** (a deviation).  If the text for the directory is empty, files are written to the current directory but
looked for in the root directory: no set that is saved is ever found again, for any number of tokens. -/
theorem C136_empty_dir (d : Files) (b : Bytes) (n n' : Nat) (p p' : Text) (le le' : LiteralEncoding) :
    savePath [] n p le = fileName n p le ∧
    (d.write (savePath [] n p le) b).read (loadPath [] n' p' le') = d.read (loadPath [] n' p' le') := by
  have e : savePath [] n p le = fileName n p le := by
    unfold savePath joinPath
    rw [if_pos (.inl rfl)]; rfl
  refine ⟨e, ?_⟩
  rw [e, loadPath_eq]
  unfold Files.write
  simp only
  rw [if_neg]
  unfold fileName
  intro h
  simp only [List.nil_append, List.append_assoc, List.cons_append, List.cons.injEq] at h
  exact absurd h.1 (by decide)

/-- **C136** (both generations).  A file of the first generation with the encoding that `optimize_all` uses (`Dist8`)
never has the name of a file of the second; the encodings that are commented out, `Bits1`, `Bits2` and `Bits4`, would
share names with it. -/
theorem C136_generations (n n' : Nat) (p p' : Processing) (q : Text) (ty : TokenType) :
    fileName n q .dist8 ≠ tokenFile n' p' ty ∧
    (fileName n p.text .bits1 = tokenFile n p .bits1 ∧ fileName n p.text .bits2 = tokenFile n p .bits2 ∧
      fileName n p.text .bits4 = tokenFile n p .bits4) := by
  constructor
  · intro h
    unfold fileName tokenFile at h
    have h := List.append_cancel_right h
    have h := congrArg List.getLast? h
    simp only [List.getLast?_append] at h
    cases ty
    · exact absurd (show some '8' = some '1' from h) (by decide)
    · exact absurd (show some '8' = some '2' from h) (by decide)
    · exact absurd (show some '8' = some '4' from h) (by decide)
    · exact absurd (show some '8' = some 's' from h) (by decide)
    · exact absurd (show some '8' = some 'f' from h) (by decide)
  · cases p <;> exact ⟨rfl, rfl, rfl⟩

/-! ### Examples -/

-- a file is saved and found again, and not for another number of tokens
example (d : Files) :
    savePath ['o', 'u', 't'] 12 ['r', 'a', 'w'] .dist8 = "out/tokens12_raw_dist8.json".toList ∧
    (d.write (savePath ['o', 'u', 't'] 12 ['r', 'a', 'w'] .dist8) [1]).read
      (loadPath ['o', 'u', 't'] 12 ['r', 'a', 'w'] .dist8) = some [1] ∧
    (d.write (savePath ['o', 'u', 't'] 12 ['r', 'a', 'w'] .dist8) [1]).read
      (loadPath ['o', 'u', 't'] 6 ['r', 'a', 'w'] .dist8) = d.read (loadPath ['o', 'u', 't'] 6 ['r', 'a', 'w'] .dist8) := by
  have h := C136_saved_is_found d ['o', 'u', 't'] (by decide) (by decide) [1] 12 ['r', 'a', 'w'] .dist8
  exact ⟨by decide, h.1, h.2 6 ['r', 'a', 'w'] .dist8 (by simp)⟩

-- a text for the processing with digits and underscores
example : fileName 1 ['1', '_', 'x'] .hex ≠ fileName 11 ['x'] .hex := by
  rw [Ne, C136_name_iff]; decide

end Tokens.Props
