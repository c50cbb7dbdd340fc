import Verif.Model.Sampler

/-! UTF-8: decoding inverts encoding; shape of encoded characters; splitting. -/

set_option linter.unusedSimpArgs false
set_option linter.unusedVariables false

namespace Tokens
open Input

theorem mk_utf8Encode (cs : Text) : ByteArray.mk (utf8Encode cs).toArray = List.utf8Encode cs := by
  unfold utf8Encode List.utf8Encode
  ext1
  simp

theorem utf8Decode_encode (cs : Text) : utf8Decode (utf8Encode cs) = some cs := by
  unfold utf8Decode
  rw [mk_utf8Encode, List.utf8Decode?_utf8Encode]
  simp

theorem utf8Encode_of_decode {b : Bytes} {cs : Text} (h : utf8Decode b = some cs) :
    b = utf8Encode cs := by
  unfold utf8Decode at h
  obtain ⟨a, ha, rfl⟩ := Option.map_eq_some_iff.1 h
  have hs : (ByteArray.mk b.toArray).utf8Decode?.isSome := by rw [ha]; rfl
  have h1 := @ByteArray.utf8Encode_get_utf8Decode? (ByteArray.mk b.toArray) hs
  have h2 : (ByteArray.mk b.toArray).utf8Decode?.get hs = a := by simp [ha]
  rw [h2, ← mk_utf8Encode] at h1
  have h3 := congrArg (fun x => x.data.toList) h1
  simpa using h3.symm

theorem utf8Decode_iff {b : Bytes} {cs : Text} : utf8Decode b = some cs ↔ b = utf8Encode cs :=
  ⟨utf8Encode_of_decode, fun h => by rw [h, utf8Decode_encode]⟩

theorem validUtf8_iff {b : Bytes} : validUtf8 b = true ↔ ∃ cs, b = utf8Encode cs := by
  unfold validUtf8
  rw [Option.isSome_iff_exists]
  simp only [utf8Decode_iff]

theorem validUtf8_encode (cs : Text) : validUtf8 (utf8Encode cs) = true := validUtf8_iff.2 ⟨cs, rfl⟩

theorem utf8Encode_inj {a b : Text} (h : utf8Encode a = utf8Encode b) : a = b := by
  have := utf8Decode_encode a
  rw [h, utf8Decode_encode] at this
  simpa using this.symm

@[simp] theorem utf8Encode_nil : utf8Encode [] = [] := rfl
theorem utf8Encode_cons (c : Char) (cs : Text) :
    utf8Encode (c :: cs) = String.utf8EncodeChar c ++ utf8Encode cs := by simp [utf8Encode]
theorem utf8Encode_append (a b : Text) : utf8Encode (a ++ b) = utf8Encode a ++ utf8Encode b := by
  simp [utf8Encode]
theorem utf8Encode_singleton (c : Char) : utf8Encode [c] = String.utf8EncodeChar c := by
  simp [utf8Encode]

theorem isCharStart_ofNat {n : Nat} (h : n < 256) :
    isCharStart (UInt8.ofNat n) = (decide (n < 128) || decide (n ≥ 192)) := by
  unfold isCharStart
  have h1 : (UInt8.ofNat n < 128) ↔ n < 128 := by
    rw [UInt8.lt_iff_toNat_lt, UInt8.toNat_ofNat_of_lt' h]; rfl
  have h2 : (UInt8.ofNat n ≥ 192) ↔ n ≥ 192 := by
    rw [ge_iff_le, UInt8.le_iff_toNat_le, UInt8.toNat_ofNat_of_lt' h]; rfl
  simp only [h1, h2]

theorem ofNat_lt_128 {n : Nat} (h : n < 256) : (UInt8.ofNat n < 128) ↔ n < 128 := by
  rw [UInt8.lt_iff_toNat_lt, UInt8.toNat_ofNat_of_lt' h]; rfl

/-- An encoded character: a start byte and up to three continuation bytes; one byte exactly when it
is below 128. -/
theorem char_shape (c : Char) : ∃ l r, String.utf8EncodeChar c = l :: r ∧ isCharStart l = true ∧
    (∀ x ∈ r, isCharStart x = false) ∧ r.length ≤ 3 ∧ (l < 128 ↔ r = []) := by
  unfold String.utf8EncodeChar
  generalize c.val.toNat = v
  simp only
  have hm : ∀ a : Nat, isCharStart (UInt8.ofNat (a % 64 + 128)) = false := by
    intro a
    rw [isCharStart_ofNat (by omega)]
    simp; omega
  split
  · refine ⟨_, _, rfl, ?_, by simp, by simp, ?_⟩
    · rw [isCharStart_ofNat (by omega)]; simp; omega
    · rw [ofNat_lt_128 (by omega)]; simp; omega
  split
  · refine ⟨_, _, rfl, ?_, by simp only [List.forall_mem_cons, hm]; simp, by simp, ?_⟩
    · rw [isCharStart_ofNat (by omega)]; simp
    · rw [ofNat_lt_128 (by omega)]; simp
  split
  · refine ⟨_, _, rfl, ?_, by simp only [List.forall_mem_cons, hm]; simp, by simp, ?_⟩
    · rw [isCharStart_ofNat (by omega)]; simp
    · rw [ofNat_lt_128 (by omega)]; simp
  · refine ⟨_, _, rfl, ?_, by simp only [List.forall_mem_cons, hm]; simp, by simp, ?_⟩
    · rw [isCharStart_ofNat (by omega)]; simp
    · rw [ofNat_lt_128 (by omega)]; simp

/-- A prefix of encoded text is the encoding of some characters and a proper prefix of the next
character. -/
theorem encode_prefix (cs : Text) (a b : Bytes) (h : utf8Encode cs = a ++ b) :
    ∃ c1 c2 r, cs = c1 ++ c2 ∧ a = utf8Encode c1 ++ r ∧
      (r = [] ∨ ∃ d ds r', c2 = d :: ds ∧ r' ≠ [] ∧ String.utf8EncodeChar d = r ++ r') := by
  induction cs generalizing a with
  | nil =>
    simp at h
    exact ⟨[], [], [], rfl, by simp [h.1], .inl rfl⟩
  | cons c cs ih =>
    rw [utf8Encode_cons] at h
    rcases List.append_eq_append_iff.1 h with ⟨x, hx1, hx2⟩ | ⟨x, hx1, hx2⟩
    · obtain ⟨c1, c2, r, h1, h2, h3⟩ := ih x hx2
      exact ⟨c :: c1, c2, r, by simp [h1], by rw [hx1, h2, utf8Encode_cons, List.append_assoc], h3⟩
    · by_cases hx : x = []
      · subst hx
        exact ⟨[c], cs, [], rfl, by simp [utf8Encode_singleton]; simpa using hx1.symm, .inl rfl⟩
      · exact ⟨[], c :: cs, a, rfl, by simp, .inr ⟨c, cs, x, rfl, hx, hx1⟩⟩

/-- Cutting encoded text before a start byte (or at its end) cuts between characters. -/
theorem encode_split (cs : Text) (a b : Bytes) (h : utf8Encode cs = a ++ b)
    (hb : ∀ x, b.head? = some x → isCharStart x = true) :
    ∃ c1 c2, cs = c1 ++ c2 ∧ a = utf8Encode c1 ∧ b = utf8Encode c2 := by
  obtain ⟨c1, c2, r, h1, h2, h3⟩ := encode_prefix cs a b h
  rcases h3 with rfl | ⟨d, ds, r', h3, h4, h5⟩
  · refine ⟨c1, c2, h1, by simpa using h2, ?_⟩
    rw [h1, h2, utf8Encode_append] at h
    simpa using h.symm
  · by_cases hr : r = []
    · subst hr
      refine ⟨c1, c2, h1, by simpa using h2, ?_⟩
      rw [h1, h2, utf8Encode_append] at h
      simpa using h.symm
    · exfalso
      rw [h1, h2, h3, utf8Encode_append, utf8Encode_cons, h5] at h
      simp at h
      obtain ⟨l, t, e1, _, e3, _⟩ := char_shape d
      obtain ⟨y, ys, rfl⟩ := List.exists_cons_of_ne_nil h4
      obtain ⟨z, zs, rfl⟩ := List.exists_cons_of_ne_nil hr
      have := hb y (by rw [← h]; rfl)
      rw [e1] at h5
      simp at h5
      rw [e3 y (by rw [h5.2]; simp)] at this
      simp at this

/-- After a byte below 128 there is a character boundary. -/
theorem encode_split_ascii (cs : Text) (a b : Bytes) (x : UInt8) (hx : x < 128)
    (h : utf8Encode cs = a ++ x :: b) :
    ∃ c1 c2, cs = c1 ++ c2 ∧ a ++ [x] = utf8Encode c1 ∧ b = utf8Encode c2 := by
  have hxs : isCharStart x = true := by simp [isCharStart, hx]
  obtain ⟨c1, c2, h1, h2, h3⟩ := encode_split cs a (x :: b) h (by
    intro y hy; simp at hy; subst hy; exact hxs)
  cases c2 with
  | nil => simp at h3
  | cons c c2 =>
    obtain ⟨l, r, e1, _, _, _, e4⟩ := char_shape c
    rw [utf8Encode_cons, e1] at h3
    simp at h3
    obtain ⟨rfl, h3⟩ := h3
    have hr := e4.1 hx
    subst hr
    refine ⟨c1 ++ [c], c2, by simp [h1], ?_, by simpa using h3⟩
    rw [utf8Encode_append, utf8Encode_singleton, e1, h2]

theorem validUtf8_append {a b : Bytes} (ha : validUtf8 a = true) (hb : validUtf8 b = true) :
    validUtf8 (a ++ b) = true := by
  obtain ⟨x, rfl⟩ := validUtf8_iff.1 ha
  obtain ⟨y, rfl⟩ := validUtf8_iff.1 hb
  rw [← utf8Encode_append]
  exact validUtf8_encode _

theorem utf8Encode_head (cs : Text) (x : UInt8) (h : (utf8Encode cs).head? = some x) :
    isCharStart x = true := by
  cases cs with
  | nil => simp at h
  | cons c cs =>
    obtain ⟨l, r, e1, e2, _⟩ := char_shape c
    rw [utf8Encode_cons, e1] at h
    simp at h
    subst h
    exact e2

/-- Validity of the parts and a character boundary are the same thing. -/
theorem valid_split_iff {a b : Bytes} (h : validUtf8 (a ++ b) = true) :
    (validUtf8 a = true ∧ validUtf8 b = true) ↔ ∀ x, b.head? = some x → isCharStart x = true := by
  obtain ⟨cs, hcs⟩ := validUtf8_iff.1 h
  constructor
  · rintro ⟨_, hb⟩ x hx
    obtain ⟨ds, rfl⟩ := validUtf8_iff.1 hb
    exact utf8Encode_head ds x hx
  · intro hb
    obtain ⟨c1, c2, _, rfl, rfl⟩ := encode_split cs a b hcs.symm hb
    exact ⟨validUtf8_encode _, validUtf8_encode _⟩

theorem validUtf8_nil : validUtf8 [] = true := validUtf8_iff.2 ⟨[], rfl⟩


end Tokens
