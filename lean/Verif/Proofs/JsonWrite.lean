import Verif.Proofs.JsonRead
import Verif.Proofs.Json2
import Verif.Proofs.Utf8

/-!
What the program writes is JSON text for the value written, and it is read back.
-/

namespace Tokens
open Spec
namespace JsonWrite
open Json

set_option linter.unusedSimpArgs false
set_option linter.unusedVariables false

theorem hexValue_hexDigit (n : Nat) (h : n < 16) : hexValue (hexDigit n) = some n := by
  have h9 : ∀ n < 16, hexValue (hexDigit n) = some n := by decide +kernel
  exact h9 n h

theorem char_of {c : Char} {n : Nat} (h : c.toNat = n) : c = Char.ofNat n := by
  rw [← h, Char.ofNat_toNat]

theorem chars_escape (c : Char) {t s : Text} (h : Chars t s) : Chars (escapeChar c ++ t) (c :: s) := by
  unfold escapeChar
  split
  · rename_i h1; subst h1; exact .short (by decide) h
  split
  · rename_i _ h1; subst h1; exact .short (by decide) h
  split
  · rename_i _ _ h1; rw [char_of h1]; exact .short (by decide) h
  split
  · rename_i _ _ _ h1; rw [char_of h1]; exact .short (by decide) h
  split
  · rename_i _ _ _ _ h1; rw [char_of h1]; exact .short (by decide) h
  split
  · rename_i _ _ _ _ _ h1; rw [char_of h1]; exact .short (by decide) h
  split
  · rename_i _ _ _ _ _ _ h1; rw [char_of h1]; exact .short (by decide) h
  split
  · rename_i h1
    have h2 : Hex4 '0' '0' (hexDigit (c.toNat / 16)) (hexDigit (c.toNat % 16)) c.toNat :=
      ⟨0, 0, _, _, rfl, rfl, hexValue_hexDigit _ (by omega), hexValue_hexDigit _ (by omega), by omega⟩
    have h3 := Chars.hex h2 (Or.inl (by omega)) h
    rw [Char.ofNat_toNat] at h3
    exact h3
  · rename_i h1 h2 _ _ _ _ _ h3
    exact .plain (by omega) h1 h2 h

theorem chars_flatMap (s : Text) : Chars (s.flatMap escapeChar) s := by
  induction s with
  | nil => exact .nil
  | cons c s ih => rw [List.flatMap_cons]; exact chars_escape c ih

theorem ws_nil : Ws [] := by intro c hc; simp at hc

mutual
theorem denotes_render {k : Nat} (j : Json) (h : Storable k j) : Denotes j.render j := by
  match j, h with
  | .null, _ => rw [render]; exact .null
  | .bool true, _ => rw [render]; exact .true
  | .bool false, _ => rw [render]; exact .false
  | .num n, _ => rw [render, ← JsonRead.toString_int]; exact .int n
  | .float t, .float _ _ h => rw [render]; exact .float h
  | .str s, _ => rw [render]; exact .str (chars_flatMap s)
  | .arr [], _ => rw [render, renderArr]; exact .emptyArr (w := []) ws_nil
  | .arr (v :: l), .arr _ _ h =>
    rw [render]
    obtain ⟨t, ht, h9⟩ := elements_render v l h
    rw [renderArr, if_pos rfl, List.nil_append, ht]
    exact .arr h9
  | .obj [], _ => rw [render, renderObj]; exact .emptyObj (w := []) ws_nil
  | .obj ((s, v) :: l), .obj _ _ _ h =>
    rw [render]
    obtain ⟨t, ht, h9⟩ := members_render s v l h
    rw [renderObj, if_pos rfl, List.nil_append, ht]
    exact .obj h9
theorem elements_render {k : Nat} (v : Json) (l : List Json) (h : ∀ x ∈ v :: l, Storable k x) :
    ∃ t, v.render ++ renderArr false l = t ++ [']'] ∧ Elements t (v :: l) := by
  have hv := denotes_render v (h v (by simp))
  match l, h with
  | [], _ =>
    refine ⟨v.render, by rw [renderArr], ?_⟩
    have := Elements.one ws_nil hv ws_nil
    simpa using this
  | v' :: l, h =>
    obtain ⟨t, ht, h9⟩ := elements_render v' l (fun x hx => h x (by simp [hx]))
    refine ⟨v.render ++ ',' :: t, ?_, ?_⟩
    · rw [renderArr, if_neg (by simp), ht]; simp
    · have := Elements.cons ws_nil hv ws_nil h9
      simpa using this
theorem members_render {k : Nat} (s : Text) (v : Json) (l : List (Text × Json))
    (h : ∀ x ∈ (s, v) :: l, Storable k x.2) :
    ∃ t, renderStr s ++ (':' :: (v.render ++ renderObj false l)) = t ++ ['}'] ∧
      Members t ((s, v) :: l) := by
  have hv := denotes_render v (h (s, v) (by simp))
  match l, h with
  | [], _ =>
    refine ⟨renderStr s ++ (':' :: v.render), by rw [renderObj]; simp, ?_⟩
    have := Members.one ws_nil (chars_flatMap s) ws_nil ws_nil hv ws_nil
    simpa [renderStr] using this
  | (s', v') :: l, h =>
    obtain ⟨t, ht, h9⟩ := members_render s' v' l (fun x hx => h x (by simp [hx]))
    refine ⟨renderStr s ++ (':' :: (v.render ++ ',' :: t)), ?_, ?_⟩
    · rw [renderObj, if_neg (by simp), ht]; simp
    · have := Members.cons ws_nil (chars_flatMap s) ws_nil ws_nil hv ws_nil h9
      simpa [renderStr] using this
end

/-- The compact text of a value is JSON text for it. -/
theorem render_jsonText {k : Nat} {v : Json} (h : Storable k v) : JsonText v.render v :=
  ⟨[], v.render, [], ws_nil, ws_nil, by simp, denotes_render v h⟩

theorem storable_mono {k : Nat} {v : Json} (h : Storable k v) : Storable (k + 1) v := by
  induction h with
  | null => exact .null _
  | bool => exact .bool _ _
  | num _ n h1 h2 => exact .num _ n h1 h2
  | float _ t h => exact .float _ t h
  | str => exact .str _ _
  | arr d l _ ih => exact .arr _ _ ih
  | obj d l h _ ih => exact .obj _ _ h ih

theorem storable_byte (k : Nat) (b : UInt8) : Storable k (.num b.toNat) :=
  .num _ _ (by omega) (by have := b.toNat_lt; omega)

theorem storable_bytes (b : Bytes) : Storable 1 (bytesToJson b) := by
  unfold bytesToJson
  split
  · exact .str _ _
  · refine .arr _ _ ?_
    intro v hv
    obtain ⟨x, _, rfl⟩ := List.mem_map.1 hv
    exact storable_byte _ x

theorem storable_token (t : Token) : Storable 1 t.toJson := by
  cases t with
  | ext n => exact storable_byte _ n
  | str b => exact storable_bytes b

theorem storable_tokens (l : List Token) : Storable 2 (.arr (l.map Token.toJson)) := by
  refine .arr _ _ ?_
  intro v hv
  obtain ⟨t, _, rfl⟩ := List.mem_map.1 hv
  exact storable_token t

theorem storable_seq (tokens : List Token) (q : Sequence) : Storable 3 (seqJson tokens q) := by
  refine .obj _ _ (by simp only [List.map_cons, List.map_nil]; decide) ?_
  intro m hm
  simp only [List.mem_cons, List.not_mem_nil, or_false] at hm
  rcases hm with rfl | rfl
  · exact storable_mono (storable_bytes _)
  · exact storable_tokens _

/-- The members of the object written for a set. -/
theorem storable_members (ts : TokenSet) (m : Text × Json)
    (hm : m ∈ [("processing".toList, Json.str ts.processing.text)] ++
      (if (ts.sequences.filter (fun q => decide (q.tokens.length > 1))).isEmpty then []
       else [("sequences".toList,
        .arr ((ts.sequences.filter (fun q => decide (q.tokens.length > 1))).map (seqJson ts.tokens)))]) ++
      [("split_paragraphs".toList, .bool ts.splitParagraphs),
       ("tokens".toList, .arr (ts.tokens.map Token.toJson)),
       ("type".toList, .str ts.tokenType.text)]) : Storable 4 m.2 := by
  simp only [List.mem_append, List.mem_cons, List.not_mem_nil, or_false] at hm
  rcases hm with (rfl | hm) | rfl | rfl | rfl
  · exact .str _ _
  · split at hm
    · simp at hm
    · simp only [List.mem_cons, List.not_mem_nil, or_false] at hm
      subst hm
      refine .arr _ _ ?_
      intro j hj
      obtain ⟨q, _, rfl⟩ := List.mem_map.1 hj
      exact storable_seq _ q
  · exact .bool _ _
  · exact storable_mono (storable_mono (storable_tokens _))
  · exact .str _ _

theorem storable_jsonOf (ts : TokenSet) : Storable 5 (jsonOf ts) := by
  refine .obj _ _ ?_ (storable_members ts)
  split
  · simp only [List.map_append, List.map_cons, List.map_nil]; decide
  · simp only [List.map_append, List.map_cons, List.map_nil]; decide

theorem cut_tokens (l1 l2 : List (Text × Json)) (x : Json)
    (h : ∀ m ∈ l1, (m.1 != "tokens".toList) = true) :
    (l1 ++ ("tokens".toList, x) :: l2).takeWhile (fun kv => kv.1 != "tokens".toList) = l1 ∧
    (l1 ++ ("tokens".toList, x) :: l2).dropWhile (fun kv => kv.1 != "tokens".toList) =
      ("tokens".toList, x) :: l2 := by
  induction l1 with
  | nil =>
    rw [List.nil_append, List.takeWhile_cons_of_neg (by simp), List.dropWhile_cons_of_neg (by simp)]
    exact ⟨rfl, rfl⟩
  | cons m l ih =>
    have hm : (fun kv : Text × Json => kv.1 != "tokens".toList) m = true := h m (by simp)
    have ih := ih (fun m hm => h m (by simp [hm]))
    rw [List.cons_append, List.takeWhile_cons_of_pos (p := fun kv : Text × Json => kv.1 != "tokens".toList) hm,
      List.dropWhile_cons_of_pos (p := fun kv : Text × Json => kv.1 != "tokens".toList) hm, ih.1, ih.2]
    exact ⟨rfl, rfl⟩

/-- The object with the statistics. -/
theorem storable_insert (p sp tk ty stats : Json)
    {c : Bool} {b : Json} (hst : Storable 4 stats)
    (hm : ∀ m ∈ [("processing".toList, p)] ++ (if c = true then [] else [("sequences".toList, b)]) ++
      [("split_paragraphs".toList, sp), ("tokens".toList, tk), ("type".toList, ty)], Storable 4 m.2) :
    Storable 5 (.obj (
      ([("processing".toList, p)] ++ (if c = true then [] else [("sequences".toList, b)]) ++
      [("split_paragraphs".toList, sp), ("tokens".toList, tk), ("type".toList, ty)]).takeWhile
        (fun kv => kv.1 != "tokens".toList) ++ ("stats".toList, stats) ::
      ([("processing".toList, p)] ++ (if c = true then [] else [("sequences".toList, b)]) ++
      [("split_paragraphs".toList, sp), ("tokens".toList, tk), ("type".toList, ty)]).dropWhile
        (fun kv => kv.1 != "tokens".toList))) := by
  cases c with
  | true =>
    have e : [("processing".toList, p)] ++ (if true = true then [] else [("sequences".toList, b)]) ++
      [("split_paragraphs".toList, sp), ("tokens".toList, tk), ("type".toList, ty)] =
      [("processing".toList, p), ("split_paragraphs".toList, sp)] ++ ("tokens".toList, tk) ::
        [("type".toList, ty)] := rfl
    rw [e] at hm ⊢
    have h9 := cut_tokens [("processing".toList, p), ("split_paragraphs".toList, sp)]
      [("type".toList, ty)] tk (by
        intro m hm
        simp only [List.mem_cons, List.not_mem_nil, or_false] at hm
        rcases hm with rfl | rfl
        · simp only; decide
        · simp only; decide)
    rw [h9.1, h9.2]
    refine .obj _ _ (by
      simp only [List.map_append, List.map_cons, List.map_nil, List.cons_append, List.nil_append]; decide) ?_
    intro m h
    simp only [List.mem_append, List.mem_cons, List.not_mem_nil, or_false] at h hm
    rcases h with (h | h) | h | h | h
    · exact hm m (.inl (.inl h))
    · exact hm m (.inl (.inr h))
    · subst h; exact hst
    · exact hm m (.inr (.inl h))
    · exact hm m (.inr (.inr h))
  | false =>
    have e : [("processing".toList, p)] ++ (if false = true then [] else [("sequences".toList, b)]) ++
      [("split_paragraphs".toList, sp), ("tokens".toList, tk), ("type".toList, ty)] =
      [("processing".toList, p), ("sequences".toList, b), ("split_paragraphs".toList, sp)] ++
        ("tokens".toList, tk) :: [("type".toList, ty)] := rfl
    rw [e] at hm ⊢
    have h9 := cut_tokens
      [("processing".toList, p), ("sequences".toList, b), ("split_paragraphs".toList, sp)]
      [("type".toList, ty)] tk (by
        intro m hm
        simp only [List.mem_cons, List.not_mem_nil, or_false] at hm
        rcases hm with rfl | rfl | rfl
        · simp only; decide
        · simp only; decide
        · simp only; decide)
    rw [h9.1, h9.2]
    refine .obj _ _ (by
      simp only [List.map_append, List.map_cons, List.map_nil, List.cons_append, List.nil_append]; decide) ?_
    intro m h
    simp only [List.mem_append, List.mem_cons, List.not_mem_nil, or_false] at h hm
    rcases h with (h | h | h) | h | h | h
    · exact hm m (.inl (.inl h))
    · exact hm m (.inl (.inr (.inl h)))
    · exact hm m (.inl (.inr (.inr h)))
    · subst h; exact hst
    · exact hm m (.inr (.inl h))
    · exact hm m (.inr (.inr h))

/-- The statistics of a set, when the numbers fit into 64 bits. -/
theorem storable_stats {ratio : Nat → Nat → Json} {st : TokenStats} {v : Json}
    (hr : ∀ a b, ratio a b = .null ∨ ∃ t, FloatText t ∧ ratio a b = .float t)
    (h1 : st.ntokens < 2 ^ 64) (h2 : st.scannedBytes < 2 ^ 64) (h3 : st.totalTokens < 2 ^ 64)
    (h4 : ∀ n, st.initialSize = some n → n < 2 ^ 64) (hs : SeqsInRange st.tokenSet)
    (hv : st.toJson ratio = .ok v) : Storable 5 v := by
  unfold TokenStats.toJson at hv
  rw [toJson_eq _ hs] at hv
  simp only [R.ok_bind, jsonOf] at hv
  have hv := Except.ok.inj hv
  rw [← hv]
  clear hv
  have hst : Storable 4 (Json.obj (
    (match st.initialSize with
      | some s => [("bytes_per_token".toList, ratio s st.totalTokens), ("initial_size".toList, Json.num s)]
      | none => []) ++
    [("ntokens".toList, .num st.ntokens), ("scanned_bytes".toList, .num st.scannedBytes),
     ("total_tokens".toList, .num st.totalTokens)])) := by
    cases hn : st.initialSize with
    | none =>
      refine .obj _ _ (by simp only [List.nil_append, List.map_cons, List.map_nil]; decide) ?_
      intro m hm
      simp only [List.nil_append, List.mem_cons, List.not_mem_nil, or_false] at hm
      rcases hm with rfl | rfl | rfl
      · exact .num _ _ (by omega) (by omega)
      · exact .num _ _ (by omega) (by omega)
      · exact .num _ _ (by omega) (by omega)
    | some n =>
      have hn := h4 n hn
      refine .obj _ _ (by simp only [List.cons_append, List.nil_append, List.map_cons, List.map_nil]; decide) ?_
      intro m hm
      simp only [List.cons_append, List.nil_append, List.mem_cons, List.not_mem_nil, or_false] at hm
      rcases hm with rfl | rfl | rfl | rfl | rfl
      · rcases hr n st.totalTokens with h | ⟨t, ht, h⟩
        · simp only [h]; exact .null _
        · simp only [h]; exact .float _ _ ht
      · exact .num _ _ (by omega) (by omega)
      · exact .num _ _ (by omega) (by omega)
      · exact .num _ _ (by omega) (by omega)
      · exact .num _ _ (by omega) (by omega)
  generalize Json.obj (
    (match st.initialSize with
      | some s => [("bytes_per_token".toList, ratio s st.totalTokens), ("initial_size".toList, Json.num s)]
      | none => []) ++
    [("ntokens".toList, .num st.ntokens), ("scanned_bytes".toList, .num st.scannedBytes),
     ("total_tokens".toList, .num st.totalTokens)]) = stats at hst
  have hm := storable_members st.tokenSet
  exact storable_insert _ _ _ _ stats hst hm

/-- A file with the UTF-8 encoding of JSON text is read. -/
theorem parseBytes_of {t : Text} {v : Json} (h : JsonText t v) {k : Nat} (hs : Storable k v)
    (hk : k < 128) : JsonRead.parseBytes (utf8Encode t) = some v := by
  rw [JsonRead.parseBytes, utf8Decode_encode]
  exact JsonRead.parse_of h hs hk

end JsonWrite
end Tokens
