import Verif.Proofs.JsonSound
import Verif.Proofs.Load

/-!
# Property C68: exactly which files are token sets

Read together with `Verif/Spec/JsonText.lean` (`JsonText`: the grammar of RFC 8259, `depth`, `stored`) and
`Verif/Spec/Loaded.lean` (`LoadedFrom`).
-/

namespace Tokens.Props
open Tokens Spec TokenSet

set_option linter.unusedVariables false

/-- **C68**.  A file is read as a value if and only if it is UTF-8 and a JSON text that is nested fewer
than 128 deep; the value is that of the text, where of several members with the same key the last one
counts, and integers that do not fit into 64 bits are floating point numbers. -/
theorem C68_reader_exact (file : Bytes) (v : Json) :
    JsonRead.parseBytes file = some v ↔ ∃ (text : Text) (v0 : Json),
      file = utf8Encode text ∧ JsonText text v0 ∧ depth v0 < 128 ∧ v = stored v0 := by
  unfold JsonRead.parseBytes
  constructor
  · intro h
    cases hu : utf8Decode file with
    | none => rw [hu] at h; cases h
    | some t =>
      rw [hu] at h
      obtain ⟨v0, h1, h2, h3⟩ := (JsonRead.parse_iff t v).1 h
      exact ⟨t, v0, utf8Decode_iff.1 hu, h1, h2, h3.symm⟩
  · rintro ⟨t, v0, h0, h1, h2, h3⟩
    rw [utf8Decode_iff.2 h0]
    exact (JsonRead.parse_iff t v).2 ⟨v0, h1, h2, h3.symm⟩

/-- **C68**.  A file is read as a token set if and only if it is such a text, of a value that stands for
this set.  Every other file is an error. -/
theorem C68_file_means (file : Bytes) (ts : TokenSet) :
    readTokenSet file = .ok ts ↔ ∃ (text : Text) (v0 : Json),
      file = utf8Encode text ∧ JsonText text v0 ∧ depth v0 < 128 ∧ LoadedFrom (stored v0) ts := by
  unfold readTokenSet
  constructor
  · intro h
    obtain ⟨v, h1, h2⟩ := ok_bind_inv h
    obtain ⟨t, v0, g0, g1, g2, rfl⟩ := (C68_reader_exact file v).1 (unwrapR_inv h1)
    exact ⟨t, v0, g0, g1, g2, fromJson_iff.1 h2⟩
  · rintro ⟨t, v0, g0, g1, g2, g3⟩
    rw [(C68_reader_exact file (stored v0)).2 ⟨t, v0, g0, g1, g2, rfl⟩, unwrapR_some, R.ok_bind]
    exact fromJson_iff.2 g3

/-- **C68**.  So a text has one meaning at most, although it can be taken apart in several ways. -/
theorem C68_unambiguous (text : Text) (v w : Json) (hv : JsonText text v) (hw : JsonText text w)
    (dv : depth v < 128) (dw : depth w < 128) : stored v = stored w := by
  have h1 := (JsonRead.parse_iff text _).2 ⟨v, hv, dv, rfl⟩
  have h2 := (JsonRead.parse_iff text _).2 ⟨w, hw, dw, rfl⟩
  exact Option.some.inj (h1.symm.trans h2)

-- a member named twice, a negative zero and a number that does not fit into 64 bits
example : JsonRead.parseBytes (utf8Encode "{\"b\":1,\"a\":-0, \"b\":99999999999999999999}".toList) =
    some (.obj [(['a'], .float "-0".toList), (['b'], .float "99999999999999999999".toList)]) := by
  refine (C68_reader_exact _ _).2 ⟨_, .obj [(['b'], .num 1), (['a'], .float "-0".toList),
    (['b'], .num 99999999999999999999)], rfl, ?_, by decide, ?_⟩
  · refine ⟨[], "{\"b\":1,\"a\":-0, \"b\":99999999999999999999}".toList, [], by intro c hc; simp at hc,
      by intro c hc; simp at hc, (List.append_nil _).symm, ?_⟩
    refine Denotes.obj (t := "\"b\":1,\"a\":-0, \"b\":99999999999999999999".toList) ?_
    have e : Ws [] := by intro c hc; simp at hc
    have hb : Chars ['b'] ['b'] := .plain (by decide) (by decide) (by decide) .nil
    have ha : Chars ['a'] ['a'] := .plain (by decide) (by decide) (by decide) .nil
    have h3 : Members " \"b\":99999999999999999999".toList [(['b'], .num 99999999999999999999)] :=
      Members.one (w := [' ']) (w₁ := []) (w₂ := []) (w' := []) (by intro c hc; simp_all) hb e e
        (Denotes.int 99999999999999999999) e
    have h2 := Members.cons (w := []) (w₁ := []) (w₂ := []) (w' := []) e ha e e Denotes.negZero e h3
    exact Members.cons (w := []) (w₁ := []) (w₂ := []) (w' := []) e hb e e (Denotes.int 1) e h2
  · have e : stored (.num 99999999999999999999) = .float "99999999999999999999".toList := by
      simp only [stored]
      rw [if_neg (by omega)]
      exact congrArg Json.float (by decide)
    simp only [stored, storedObj, ← JsonRead.insertAll_eq] at e ⊢
    rw [e, if_pos (by omega)]
    rfl

end Tokens.Props
