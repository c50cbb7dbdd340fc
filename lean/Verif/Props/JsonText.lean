import Verif.Proofs.JsonPrefix
import Verif.Proofs.Pretty
import Verif.Props.Commands

/-!
Theorems about the text of the JSON files (C52, C53, C54).
-/

namespace Tokens.Props
open Tokens Tokens.Spec TokenSet Main

set_option linter.unusedVariables false

/-! ## C52 the files are JSON -/

/-- **C52**.  What is written for a token set (as a cache key) is JSON text, in the sense of RFC 8259,
of the value it is made from. -/
theorem C52_set_is_json (ts : TokenSet) (h : SeqsInRange ts) :
    ∃ v : Json, ts.toJson = .ok v ∧ JsonText v.render v :=
  ⟨jsonOf ts, toJson_eq ts h, JsonWrite.render_jsonText (JsonWrite.storable_jsonOf ts)⟩

/-- **C52**.  The file written for statistics is named after the set and is JSON text of the value of
the statistics. -/
theorem C52_file_is_json (m : Machine) (hr : RatioText m.ratio) (st : TokenStats) (hf : Fits64 st)
    (hs : SeqsInRange st.tokenSet) :
    ∃ (v : Json) (text : Text), st.toJson m.ratio = .ok v ∧
      statsFile m st = .ok (st.tokenSet.name ++ ".json".toList, text) ∧ JsonText text v := by
  obtain ⟨v, w, h1, _⟩ := C17_stats_file m.ratio st hs
  refine ⟨v, v.render, h1, by simp [statsFile, h1], ?_⟩
  exact JsonWrite.render_jsonText (JsonWrite.storable_stats hr hf.ntokens hf.scanned hf.total hf.initial hs h1)

/-- **C52**.  Any file that is JSON text for the value of the statistics, with any white space and any
escapes in it, is read as the token set that this value stands for. -/
theorem C52_any_layout (m : Machine) (hr : RatioText m.ratio) (st : TokenStats) (hf : Fits64 st)
    (hs : SeqsInRange st.tokenSet) (v : Json) (hv : st.toJson m.ratio = .ok v) (text : Text)
    (ht : JsonText text v) : readTokenSet (utf8Encode text) = fromJson v := by
  have h := JsonWrite.storable_stats hr hf.ntokens hf.scanned hf.total hf.initial hs hv
  rw [readTokenSet, JsonWrite.parseBytes_of ht h (by decide)]
  rfl

/-- **C52**.  So the file that is saved for a set of type bytes or byteshuff (or with a token for every
byte) is read back as this set, except for the paragraph flag (see C17). -/
theorem C52_file_roundtrip (m : Machine) (hr : RatioText m.ratio) (st : TokenStats) (hf : Fits64 st)
    (hs : Regular st.tokenSet)
    (hty : st.tokenSet.tokenType = .bytes ∨ st.tokenSet.tokenType = .bytesHuff ∨
      ∀ b : UInt8, Token.str [b] ∈ st.tokenSet.tokens) :
    ∃ text : Text, statsFile m st = .ok (st.tokenSet.name ++ ".json".toList, text) ∧
      readTokenSet (utf8Encode text) = .ok { st.tokenSet with splitParagraphs := false } := by
  obtain ⟨v, text, h1, h2, h3⟩ := C52_file_is_json m hr st hf hs.inRange
  refine ⟨text, h2, ?_⟩
  rw [C52_any_layout m hr st hf hs.inRange v h1 text h3]
  obtain ⟨w, g1, g2⟩ := C17_roundtrip_partial st.tokenSet hs hty
  obtain ⟨v', w', k1, k2, k3⟩ := C17_stats_file m.ratio st hs.inRange
  have := Except.ok.inj (k1.symm.trans h1)
  subst this
  have := Except.ok.inj (g1.symm.trans k2)
  subst this
  rw [k3, g2]

-- statistics of a set with a sequence, and a machine that writes a quotient as 2.5
example : RatioText (fun _ _ => .float "2.5".toList) ∧
    Fits64 (TokenStats.new Example.smallHuff (some 1000)) ∧ Regular Example.smallHuff ∧
    Example.smallHuff.tokenType = .bytesHuff :=
  ⟨fun _ _ => .inr ⟨_, ⟨[], ['2'], ".5".toList, [], rfl, by decide, .inl rfl,
      .inr ⟨⟨by decide, by decide⟩, by decide⟩, .inr ⟨['5'], ⟨by decide, by decide⟩, rfl⟩, .inl rfl⟩, rfl⟩,
    ⟨by decide, by decide, by decide, fun n h => by
      have := Option.some.inj h; subst this; decide⟩,
    Example.smallHuff_regular, rfl⟩

-- a text with white space and escapes for the value of the text `["a\n",-3]`
example : JsonText " [ \"\\u0061\\n\" ,\n-3]\n".toList (.arr [.str ['a', '\n'], .num (-3)]) ∧
    JsonRead.parseBytes (utf8Encode " [ \"\\u0061\\n\" ,\n-3]\n".toList) =
      some (.arr [.str ['a', '\n'], .num (-3)]) := by
  have h : JsonText " [ \"\\u0061\\n\" ,\n-3]\n".toList (.arr [.str ['a', '\n'], .num (-3)]) := by
    refine ⟨[' '], "[ \"\\u0061\\n\" ,\n-3]".toList, ['\n'], ?_, ?_, rfl, ?_⟩
    · intro c hc; simp_all
    · intro c hc; simp_all
    · refine Denotes.arr (t := " \"\\u0061\\n\" ,\n-3".toList) ?_
      refine Elements.cons (w := [' ']) (t := "\"\\u0061\\n\"".toList) (w' := [' '])
        (t' := "\n-3".toList) (fun c hc => by simp_all) ?_ (fun c hc => by simp_all) ?_
      · refine Denotes.str (t := "\\u0061\\n".toList) ?_
        have h1 : Chars "\\n".toList ['\n'] := .short (x := 'n') (c := '\n') (by decide) .nil
        exact Chars.hex (a := '0') (b := '0') (c := '6') (d := '1') (n := 97)
          ⟨0, 0, 6, 1, rfl, rfl, rfl, rfl, rfl⟩ (.inl (by decide)) h1
      · exact Elements.one (w := ['\n']) (w' := []) (fun c hc => by simp_all) (Denotes.int (-3))
          (fun c hc => by simp_all)
  refine ⟨h, JsonWrite.parseBytes_of h (k := 1) ?_ (by decide)⟩
  refine .arr _ _ ?_
  intro v hv
  simp only [List.mem_cons, List.not_mem_nil, or_false] at hv
  rcases hv with rfl | rfl
  · exact .str _ _
  · exact .num _ _ (by decide) (by decide)

/-! ## C53 incomplete files -/

/-- **C53**.  If the program or the machine stopped while the file of a token set was being written, so
that only a beginning of it is there, then reading it is an error: no beginning of the file, however
short or long, is taken for a token set. -/
theorem C53_no_torn_file (m : Machine) (hr : RatioText m.ratio) (st : TokenStats) (hf : Fits64 st)
    (hs : SeqsInRange st.tokenSet) (name text : Text) (hfile : statsFile m st = .ok (name, text))
    (part rest : Bytes) (hp : part ++ rest = utf8Encode text) (hrest : rest ≠ []) :
    readTokenSet part = .error .unwrapNone := by
  obtain ⟨v, text', h1, h2, _⟩ := C52_file_is_json m hr st hf hs
  have hst := JsonWrite.storable_stats hr hf.ntokens hf.scanned hf.total hf.initial hs h1
  have ht : text = v.render := by
    simp only [statsFile, h1, R.ok_bind] at hfile
    exact (Prod.mk.inj (Except.ok.inj hfile)).2.symm
  subst ht
  have hobj : ∃ l, v = .obj l := by
    unfold TokenStats.toJson at h1
    rw [toJson_eq _ hs] at h1
    simp only [R.ok_bind, jsonOf] at h1
    exact ⟨_, (Except.ok.inj h1).symm⟩
  obtain ⟨l, rfl⟩ := hobj
  have := JsonRead.parseBytes_prefix (JsonWrite.denotes_render _ hst) hst (by decide) part rest hp hrest
  rw [readTokenSet, this]
  rfl

-- the hypotheses are met, with a part of any length
example : ∃ (m : Machine) (name text : Text), RatioText m.ratio ∧
    Fits64 (TokenStats.new Example.smallHuff (some 1000)) ∧
    statsFile m (TokenStats.new Example.smallHuff (some 1000)) = .ok (name, text) ∧
    ∀ n < (utf8Encode text).length, ∃ rest, (utf8Encode text).take n ++ rest = utf8Encode text ∧ rest ≠ [] := by
  have hf : Fits64 (TokenStats.new Example.smallHuff (some 1000)) :=
    ⟨by decide, by decide, by decide, fun n h => by have := Option.some.inj h; subst this; decide⟩
  have hr : RatioText aMachine.ratio := fun _ _ => .inl rfl
  obtain ⟨v, text, _, h2, _⟩ := C52_file_is_json aMachine hr _ hf Example.smallHuff_regular.inRange
  refine ⟨aMachine, _, text, hr, hf, h2, ?_⟩
  intro n hn
  refine ⟨_, List.take_append_drop n _, ?_⟩
  rw [ne_eq, List.drop_eq_nil_iff]
  omega

/-! ## C54 `pretty.py` -/

/-- **C54**.  For every value that a JSON file of the program can hold, `pretty.py` writes JSON text for
the same value, up to the way floating point numbers are written. -/
theorem C54_pretty_is_json (fl : Text → Text) (hfl : ∀ t, FloatText t → FloatText (fl t)) (k : Nat) (v : Json)
    (h : Storable k v) : JsonText (Pretty.pretty fl v) (refloat fl v) :=
  Pretty.pretty_jsonText hfl h

/-- **C54**.  After `pretty.py` has rewritten the file of a token set, the program reads the same set
from it as before. -/
theorem C54_same_set (fl : Text → Text) (hfl : ∀ t, FloatText t → FloatText (fl t)) (m : Machine)
    (hr : RatioText m.ratio) (st : TokenStats) (hf : Fits64 st) (hs : SeqsInRange st.tokenSet) (v : Json)
    (hv : st.toJson m.ratio = .ok v) (name text : Text) (hfile : statsFile m st = .ok (name, text)) :
    readTokenSet (utf8Encode (Pretty.pretty fl v)) = readTokenSet (utf8Encode text) := by
  have hst := JsonWrite.storable_stats hr hf.ntokens hf.scanned hf.total hf.initial hs hv
  have ht : text = v.render := by
    simp only [statsFile, hv, R.ok_bind] at hfile
    exact (Prod.mk.inj (Except.ok.inj hfile)).2.symm
  rw [ht, C52_any_layout m hr st hf hs v hv _ (JsonWrite.render_jsonText hst)]
  have hv' := Pretty.refloat_stats (fl := fl) hs hv
  rw [readTokenSet, JsonWrite.parseBytes_of (Pretty.pretty_jsonText hfl hst)
    (Pretty.storable_refloat hfl hst) (by decide)]
  show fromJson _ = _
  obtain ⟨v1, w1, a1, a2, a3⟩ := C17_stats_file m.ratio st hs
  obtain ⟨v2, w2, b1, b2, b3⟩ := C17_stats_file (fun a b => refloat fl (m.ratio a b)) st hs
  have := Except.ok.inj (a1.symm.trans hv)
  subst this
  have := Except.ok.inj (b1.symm.trans hv')
  subst this
  have := Except.ok.inj (a2.symm.trans b2)
  subst this
  rw [a3, b3]

/-- **C54**.  Running `pretty.py` on its own output changes nothing: the value read from it gives the
same text (if writing a floating point number that was read from Python's text gives that text). -/
theorem C54_idempotent (fl : Text → Text) (hfl : ∀ t, fl (fl t) = fl t) (v : Json) :
    Pretty.pretty fl (refloat fl v) = Pretty.pretty fl v :=
  Pretty.pretty_twice hfl v

-- a value that is too long for one line
example : Storable 2 (.obj [("tokens".toList, .arr ((List.range 60).map (fun n : Nat => Json.num (n : Int))))]) ∧
    Pretty.pretty id (.obj [("tokens".toList, .arr [.num 1, .str "a".toList])]) =
      "{\"tokens\": [1, \"a\"]}\n".toList ∧
    Pretty.serialize id 12 (.obj [("tokens".toList, .arr [.num 1, .str "a".toList])]) =
      ["{".toList, "  \"tokens\": [1, \"a\"]".toList, "}".toList] ∧
    Pretty.serialize id 7 (.obj [("tokens".toList, .arr [.num 1, .str "a".toList])]) =
      ["{".toList, "  \"tokens\": [".toList, "    1,".toList, "    \"a\"".toList, "  ]".toList, "}".toList] := by
  refine ⟨.obj _ _ (by simp) ?_, by decide, by decide, by decide⟩
  intro m hm
  simp only [List.mem_cons, List.not_mem_nil, or_false] at hm
  subst hm
  refine .arr _ _ ?_
  intro v hv
  obtain ⟨n, hn, rfl⟩ := List.mem_map.1 hv
  have := List.mem_range.1 hn
  exact .num _ _ (by omega) (by omega)

end Tokens.Props
